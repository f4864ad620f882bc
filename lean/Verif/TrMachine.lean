import Verif.TrPrivLoop
/-!
# Transposed chunks: the state machine created by the encoder
-/
namespace Riegeli.Tr

theorem publicQueue_spec {n : Nat} (T : Nat → TagInfo) : ∀ (m i : Nat) (q : List Entry), QSorted q →
    ∃ D : List Nat, D.Nodup ∧ (∀ d, d ∈ D ↔ i ≤ d ∧ d < i + m ∧ (T d).incoming ≠ 0) ∧
      (publicQueue n T q m i).Perm (D.map (fun d => ⟨.tag d, (T d).incoming⟩) ++ q) ∧ QSorted (publicQueue n T q m i) ∧
      (D.map (fun d => (T d).incoming)).sum + sumN i (fun d => (T d).incoming) ≤ sumN (i + m) (fun d => (T d).incoming)
  | 0, i, q, hq => ⟨[], List.nodup_nil, by intro d; simp; omega, List.Perm.refl _, hq, by simp⟩
  | m + 1, i, q, hq => by
    unfold publicQueue
    by_cases h0 : (T i).incoming ≠ 0
    · rw [if_pos h0]
      obtain ⟨D, h1, h2, h3, h4, h5⟩ := publicQueue_spec (n := n) T m (i + 1) (pqPush n ⟨.tag i, (T i).incoming⟩ q) (pqPush_sorted _ _ _ hq)
      refine ⟨i :: D, List.nodup_cons.2 ⟨fun hh => ?_, h1⟩, ?_, ?_, h4, ?_⟩
      · have := (h2 i).1 hh; omega
      · intro d
        rw [List.mem_cons, h2]
        constructor
        · rintro (rfl | ⟨h1, h2, h3⟩)
          · exact ⟨Nat.le_refl _, by omega, h0⟩
          · exact ⟨by omega, by omega, h3⟩
        · rintro ⟨h1, h2, h3⟩
          by_cases hd : d = i
          · exact Or.inl hd
          · exact Or.inr ⟨by omega, by omega, h3⟩
      · refine h3.trans ((List.Perm.append_left _ (pqPush_perm n _ q)).trans ?_)
        simp only [List.map_cons, List.cons_append]
        exact List.perm_middle
      · rw [List.map_cons, List.sum_cons]
        rw [show i + (m + 1) = i + 1 + m by omega]
        simp only [sumN] at h5
        omega
    · rw [if_neg h0]
      obtain ⟨D, h1, h2, h3, h4, h5⟩ := publicQueue_spec (n := n) T m (i + 1) q hq
      refine ⟨D, h1, ?_, h3, h4, ?_⟩
      · intro d
        rw [h2]
        constructor
        · rintro ⟨h1, h2, h3⟩; exact ⟨by omega, by omega, h3⟩
        · rintro ⟨k1, k2, k3⟩
          have : d ≠ i := by intro hh; rw [hh] at k3; exact h0 k3
          exact ⟨by omega, by omega, k3⟩
      · rw [show i + (m + 1) = i + 1 + m by omega]
        simp only [sumN] at h5
        omega

theorem assignPublic_spec (T : Nat → TagInfo) : ∀ (placed : List (Key × Nat)), (placed.map (·.1)).Nodup →
    ∃ f : Nat → Option Nat, assignPublic placed T = (fun x => { T x with smPos := f x }) ∧
      (∀ d p, (Key.tag d, p) ∈ placed → f d = some p) ∧
      (∀ d, Key.tag d ∉ placed.map (·.1) → f d = (T d).smPos)
  | [], _ => ⟨fun x => (T x).smPos, rfl, by simp, by simp⟩
  | (k, p) :: rest, hnd => by
    rw [List.map_cons, List.nodup_cons] at hnd
    obtain ⟨f, h1, h2, h3⟩ := assignPublic_spec T rest hnd.2
    have hmem : ∀ {k' p'}, (k', p') ∈ rest → k' ∈ rest.map (·.1) := fun h => List.mem_map.2 ⟨_, h, rfl⟩
    have hother : (∀ d, k ≠ .tag d) → assignPublic ((k, p) :: rest) T = assignPublic rest T := by
      intro hk
      cases k with
      | tag d => exact absurd rfl (hk d)
      | pub => rfl
      | block j => rfl
    by_cases hk : ∃ d, k = .tag d
    · obtain ⟨d, rfl⟩ := hk
      refine ⟨fun x => if x = d then some p else f x, ?_, ?_, ?_⟩
      · simp only [assignPublic, h1]
        funext x; by_cases hx : x = d
        · subst hx; simp only [updTag_self, if_true]
        · simp only [updTag_ne _ _ hx, if_neg hx]
      · intro d' p' hm
        rcases List.mem_cons.1 hm with hm | hm
        · cases hm; simp
        · have : d' ≠ d := by intro hdd; rw [hdd] at hm; exact hnd.1 (hmem hm)
          simp only [if_neg this]; exact h2 d' p' hm
      · intro d' hm
        simp only [List.map_cons, List.mem_cons, Key.tag.injEq, not_or] at hm
        simp only [if_neg hm.1]; exact h3 d' hm.2
    · have hk' : ∀ d, k ≠ .tag d := fun d hd => hk ⟨d, hd⟩
      refine ⟨f, by rw [hother hk', h1], ?_, ?_⟩
      · intro d' p' hm
        rcases List.mem_cons.1 hm with hm | hm
        · cases hm; exact absurd rfl (hk' d')
        · exact h2 d' p' hm
      · intro d' hm
        simp only [List.map_cons, List.mem_cons, not_or] at hm
        exact h3 d' hm.2

theorem Anc.congr {sm sm' : SM} (h : ∀ i, (sm'.get i).cs = (sm.get i).cs) {p a j : Nat} (ha : Anc sm p a j) : Anc sm' p a j := by
  induction ha with
  | refl => exact .refl
  | step hc _ ih => exact .step (by rw [h]; exact hc) ih

theorem Cover.congr {sm sm' : SM} (h : ∀ i, (sm'.get i).cs = (sm.get i).cs) {maxT b x d : Nat} (hc : Cover sm maxT b x d) :
    Cover sm' maxT b x d := by
  obtain ⟨a, j, h1, h2⟩ := hc
  exact ⟨a, j, h1.congr h, h2⟩

/-- The positions of destinations in the public list. -/
def PubOk (maxT pubBase : Nat) (T : Nat → TagInfo) (sm : SM) : Prop :=
  ∀ a d, d ∈ (T a).dests → (T a).pos d = none →
    ∃ p, Lst sm maxT pubBase sm.size ∧ (T d).smPos = some p ∧ pubBase ≤ p ∧ p < sm.size ∧ (sm.get p).etag = some d

/-- `x` as `base` reaches the destinations of tag `a` in the public list. -/
def BaseOk (maxT pubBase : Nat) (T : Nat → TagInfo) (sm : SM) (a x : Nat) : Prop :=
  Lst sm maxT pubBase sm.size ∧ ∃ b, InBlock pubBase sm.size maxT b x ∧
    ∀ d ∈ (T a).dests, (T a).pos d = none → ∀ p, (T d).smPos = some p → Cover sm maxT b x p

/-- `sm'` is `sm` where `base` was set where it was not. -/
def MoreBases (sm sm' : SM) : Prop := sm'.size = sm.size ∧ ∀ i, (sm'.get i).cs = (sm.get i).cs ∧
  (sm'.get i).etag = (sm.get i).etag ∧ ∀ b, (sm.get i).base = some b → (sm'.get i).base = some b

theorem MoreBases.lst {sm sm' : SM} (h : MoreBases sm sm') {maxT s0 top : Nat} (hL : Lst sm maxT s0 top) :
    Lst sm' maxT s0 top := hL.frame (Nat.le_of_eq h.1.symm) (fun i _ => h.2 i)

theorem PubOk.more {maxT pubBase : Nat} {T : Nat → TagInfo} {sm sm' : SM} (h : PubOk maxT pubBase T sm)
    (hm : MoreBases sm sm') : PubOk maxT pubBase T sm' := by
  intro a d h1 h2
  obtain ⟨p, e1, e2, e3, e4, e5⟩ := h a d h1 h2
  refine ⟨p, ?_, e2, e3, by rw [hm.1]; exact e4, by rw [(hm.2 p).2.1]; exact e5⟩
  rw [hm.1]; exact hm.lst e1

theorem BaseOk.more {maxT pubBase : Nat} {T : Nat → TagInfo} {sm sm' : SM} {a x : Nat} (h : BaseOk maxT pubBase T sm a x)
    (hm : MoreBases sm sm') : BaseOk maxT pubBase T sm' a x := by
  obtain ⟨hL, b, h1, h2⟩ := h
  refine ⟨by rw [hm.1]; exact hm.lst hL, b, by rw [hm.1]; exact h1, ?_⟩
  intro d hd hp p hp'
  exact (h2 d hd hp p hp').congr (fun i => (hm.2 i).1)

theorem computeNoopBases_spec {maxT pubBase : Nat} {T : Nat → TagInfo} (O : HashOrder) :
    ∀ (noops : List (Nat × Nat)) (sm : SM), PubOk maxT pubBase T sm → noops.Pairwise (fun y z => y.2 ≠ z.2) →
      (∀ y ∈ noops, (sm.get y.2).base = none ∧ ∃ d ∈ (T y.1).dests, (T y.1).pos d = none) →
      ∃ sm', computeNoopBases O maxT pubBase T sm noops = some sm' ∧ MoreBases sm sm' ∧
        ∀ y ∈ noops, ∃ x, (sm'.get y.2).base = some x ∧ BaseOk maxT pubBase T sm' y.1 x
  | [], sm, _, _, _ => ⟨sm, rfl, ⟨rfl, fun _ => ⟨rfl, rfl, fun _ h => h⟩⟩, by simp⟩
  | (a, p) :: rest, sm, hpub, hnd, hno => by
    rw [List.pairwise_cons] at hnd
    obtain ⟨hb0, d0, hd0, hd0n⟩ := hno _ List.mem_cons_self
    simp only at hb0 hd0 hd0n
    have hperm := O.perm 2 a (T a).dests
    have hstep := baseOfDests_spec (sm := sm) (maxT := maxT) (s0 := pubBase) (top := sm.size) (tags := T) (a := a)
      (ds := O.order 2 a (T a).dests) (fun d hd hn => by
        obtain ⟨q, e1, e2, e3, e4, _⟩ := hpub a d (hperm.mem_iff.1 hd) hn
        exact ⟨q, e1, e2, e3, e4⟩)
    rcases hstep with ⟨h1, _⟩ | ⟨b, x, hL, h1, h2, h3⟩
    · exact absurd hd0n (h1 d0 (hperm.mem_iff.2 hd0))
    · simp only [computeNoopBases, h1]
      have hm : MoreBases sm (sm.set p { sm.get p with base := some x }) := by
        refine ⟨rfl, ?_⟩
        intro i
        simp only [SM.set]
        by_cases hi : i = p
        · rw [if_pos hi, hi]; refine ⟨rfl, rfl, ?_⟩; intro b hb; rw [hb0] at hb; cases hb
        · rw [if_neg hi]; exact ⟨rfl, rfl, fun _ h => h⟩
      obtain ⟨sm', g1, g2, g3⟩ := computeNoopBases_spec (T := T) O rest _ (hpub.more hm) hnd.2 (by
        intro y hy
        obtain ⟨k1, k2⟩ := hno y (List.mem_cons_of_mem _ hy)
        refine ⟨?_, k2⟩
        simp only [SM.set]
        rw [if_neg (fun hh => hnd.1 y hy hh.symm)]
        exact k1)
      have hm' : MoreBases sm sm' := by
        refine ⟨by rw [g2.1, hm.1], ?_⟩
        intro i
        obtain ⟨a1, a2, a3⟩ := hm.2 i
        obtain ⟨b1, b2, b3⟩ := g2.2 i
        exact ⟨by rw [b1, a1], by rw [b2, a2], fun b hb => b3 b (a3 b hb)⟩
      refine ⟨sm', g1, hm', ?_⟩
      intro y hy
      rcases List.mem_cons.1 hy with rfl | hy
      · refine ⟨x, ?_, ?_⟩
        · apply (g2.2 p).2.2
          simp [SM.set]
        · apply BaseOk.more _ hm'
          exact ⟨hL, b, h2, fun d hd => h3 d (hperm.mem_iff.2 hd)⟩
      · exact g3 y hy

theorem computeTagBases_spec {maxT pubBase : Nat} {sm : SM} (O : HashOrder) : ∀ (m a : Nat) (T : Nat → TagInfo),
    PubOk maxT pubBase T sm →
    ∃ T', computeTagBases O maxT pubBase sm T m a = some T' ∧ ∀ x, ∃ bb, T' x = { T x with base := bb } ∧
      ((x < a ∨ (T x).base ≠ none) → bb = (T x).base) ∧
      (a ≤ x → x < a + m → (T x).base = none → ((∀ d ∈ (T x).dests, (T x).pos d ≠ none) ∧ bb = none) ∨
        ∃ y, bb = some y ∧ BaseOk maxT pubBase T sm x y ∧
          ∀ d, (T x).dests = [d] → (T x).pos d = none → (T d).smPos = some y)
  | 0, a, T, _ => ⟨T, rfl, fun x => ⟨(T x).base, rfl, fun _ => rfl, fun h1 h2 => by omega⟩⟩
  | m + 1, a, T, hpub => by
    unfold computeTagBases
    by_cases hb : (T a).base ≠ none
    · rw [if_pos hb]
      obtain ⟨T', h1, h2⟩ := computeTagBases_spec (sm := sm) O m (a + 1) T hpub
      refine ⟨T', h1, ?_⟩
      intro x
      obtain ⟨bb, e1, e2, e3⟩ := h2 x
      refine ⟨bb, e1, ?_, ?_⟩
      · rintro (h | h)
        · exact e2 (Or.inl (by omega))
        · exact e2 (Or.inr h)
      · intro k1 k2 k3
        have : x ≠ a := by rintro rfl; exact hb k3
        exact e3 (by omega) (by omega) k3
    · rw [if_neg hb]
      have hbn : (T a).base = none := by
        cases h : (T a).base with
        | none => rfl
        | some v => exact absurd (by rw [h]; simp) hb
      have hperm := O.perm 2 a (T a).dests
      have hstep := baseOfDests_spec (sm := sm) (maxT := maxT) (s0 := pubBase) (top := sm.size) (tags := T) (a := a)
        (ds := O.order 2 a (T a).dests) (fun d hd hn => by
          obtain ⟨q, e1, e2, e3, e4, _⟩ := hpub a d (hperm.mem_iff.1 hd) hn
          exact ⟨q, e1, e2, e3, e4⟩)
      rcases hstep with ⟨h1, h2⟩ | ⟨b, y, hL, h1, h2, h3⟩
      · simp only [h2, ne_eq, not_true_eq_false, if_false]
        obtain ⟨T', g1, g2⟩ := computeTagBases_spec (sm := sm) O m (a + 1) T hpub
        refine ⟨T', g1, ?_⟩
        intro x
        obtain ⟨bb, e1, e2, e3⟩ := g2 x
        refine ⟨bb, e1, ?_, ?_⟩
        · rintro (h | h)
          · exact e2 (Or.inl (by omega))
          · exact e2 (Or.inr h)
        · intro k1 k2 k3
          by_cases hx : x = a
          · subst hx
            left
            exact ⟨fun d hd => h1 d (hperm.mem_iff.2 hd), by rw [e2 (Or.inl (by omega)), k3]⟩
          · exact e3 (by omega) (by omega) k3
      · simp only [h1]
        rw [if_pos (by simp)]
        have hT1 : ∀ x, ∃ b1, updTag T a (fun t => { t with base := some y }) x = { T x with base := b1 } ∧
            (x ≠ a → b1 = (T x).base) ∧ (x = a → b1 = some y) := by
          intro x
          by_cases hx : x = a
          · subst hx; rw [updTag_self]; exact ⟨_, rfl, fun h => absurd rfl h, fun _ => rfl⟩
          · rw [updTag_ne _ _ hx]; exact ⟨(T x).base, rfl, fun _ => rfl, fun h => absurd h hx⟩
        generalize updTag T a (fun t => { t with base := some y }) = T1 at *
        have hsame : ∀ x, (T1 x).dests = (T x).dests ∧ (T1 x).pos = (T x).pos ∧ (T1 x).smPos = (T x).smPos := by
          intro x; obtain ⟨b1, k1, _⟩ := hT1 x; rw [k1]; exact ⟨rfl, rfl, rfl⟩
        have hpub1 : PubOk maxT pubBase T1 sm := by
          intro a' d' k1 k2
          rw [(hsame a').1] at k1
          rw [(hsame a').2.1] at k2
          rw [(hsame d').2.2]
          exact hpub a' d' k1 k2
        obtain ⟨T', g1, g2⟩ := computeTagBases_spec (sm := sm) O m (a + 1) T1 hpub1
        refine ⟨T', g1, ?_⟩
        intro x
        obtain ⟨bb, e1, e2, e3⟩ := g2 x
        obtain ⟨b1, f1, f2, f3⟩ := hT1 x
        refine ⟨bb, by rw [e1, f1], ?_, ?_⟩
        · intro h
          have hx : x ≠ a := by
            rintro rfl
            rcases h with h | h
            · omega
            · exact h hbn
          have hbb : (T1 x).base = (T x).base := by rw [f1]; exact f2 hx
          rw [← hbb]
          apply e2
          rcases h with h | h
          · exact Or.inl (by omega)
          · right; rw [hbb]; exact h
        · intro k1 k2 k3
          by_cases hx : x = a
          · right
            have hbb : (T1 x).base = some y := by rw [f1]; exact f3 hx
            refine ⟨y, by rw [e2 (Or.inl (by omega)), hbb], ?_, ?_⟩
            · rw [hx]; exact ⟨hL, b, h2, fun d hd => h3 d (hperm.mem_iff.2 hd)⟩
            · intro d hd hn
              rw [hx] at hd hn
              obtain ⟨q, l1, l2, l3, l4, _⟩ := hpub a d (by rw [hd]; simp) hn
              have ho : O.order 2 a (T a).dests = [d] := by
                have := O.perm 2 a (T a).dests
                rw [hd] at this ⊢
                exact List.perm_singleton.1 this
              rw [ho, baseOfDests_one l1 hn l2 l3 l4] at h1
              cases h1
              exact l2
          · have hbb : (T1 x).base = (T x).base := by rw [f1]; exact f2 hx
            rcases e3 (by omega) (by omega) (by rw [hbb]; exact k3) with ⟨l1, l2⟩ | ⟨y', l1, l2, l3⟩
            · left
              refine ⟨?_, l2⟩
              rw [(hsame x).1, (hsame x).2.1] at l1; exact l1
            · right
              refine ⟨y', l1, ?_, ?_⟩
              · obtain ⟨q1, b', q2, q3⟩ := l2
                refine ⟨q1, b', q2, ?_⟩
                intro d hd hp p hp'
                apply q3 d (by rw [(hsame x).1]; exact hd) (by rw [(hsame x).2.1]; exact hp) p (by rw [(hsame d).2.2]; exact hp')
              · intro d hd hp
                rw [(hsame x).1, (hsame x).2.1] at l3
                rw [← (hsame d).2.2]
                exact l3 d hd hp

/-- The offsets for a transition which is not implicit (`transpose_encoder.cc:832-924`). -/
def coreOffsets (maxT : Nat) (sm : SM) (tags : Nat → TagInfo) (prev tag : Nat) : Option (List Nat) :=
  match (tags prev).pos tag with
  | some pos => if pos < sm.size then climb maxT sm (tags prev).base kWriteBufSize pos [] else none
  | none =>
    match (tags tag).smPos with
    | none => none
    | some pos =>
      if pos < sm.size then
        match (tags prev).noopPos with
        | none => climb maxT sm (tags prev).base kWriteBufSize pos []
        | some q =>
          match climb maxT sm (tags prev).base kWriteBufSize q [] with
          | none => none
          | some w1 =>
            match climb maxT sm (sm.get q).base kWriteBufSize pos [] with
            | none => none
            | some w2 => some (w1 ++ w2)
      else none

theorem transitionOffsets_eq (maxT : Nat) (sm : SM) (tags : Nat → TagInfo) (prev tag : Nat) :
    transitionOffsets maxT sm tags prev tag =
      if (tags prev).dests.length ≠ 1 then coreOffsets maxT sm tags prev tag
      else if ((tags prev).base.bind (fun b => (sm.get b).etag)) = some tag then some [] else none := rfl

/-- The state machine created by the encoder for the tags `E`, the first one being `first`. -/
structure Mach (maxT k first : Nat) (E : List Nat) (T : Nat → TagInfo) (sm : SM) : Prop where
  size : sm.size ≤ 4 * k + 2
  start : ∃ p, p < sm.size ∧ (sm.get p).etag = some first
  noop : ∀ p, p < sm.size → (sm.get p).etag = none → ∃ b, (sm.get p).base = some b ∧ b < sm.size
  tag : ∀ p e, p < sm.size → (sm.get p).etag = some e → e ∈ E
  base : ∀ e b, (T e).base = some b → b < sm.size
  core : ∀ a d, d ∈ (T a).dests → ∃ o ws mids b p, coreOffsets maxT sm T a d = some (o :: ws) ∧
    (T a).base = some b ∧ Tail sm (b + o) ws p mids ∧ p < sm.size ∧ (sm.get p).etag = some d ∧
    (∀ o' ∈ o :: ws, o' ≤ maxT)
  one : ∀ a d, (T a).dests = [d] → ∃ b, (T a).base = some b ∧ b < sm.size ∧ (sm.get b).etag = some d
  nxt : ∀ i a d, E[i]? = some a → E[i + 1]? = some d → d ∈ (T a).dests

/-- The state machine is created. -/
theorem createStateMachine_spec {n maxT minCount : Nat} (O : HashOrder) (hT : 0 < maxT) (first : Nat) (rest : List Nat)
    (hE : ∀ e ∈ first :: rest, e < n) (hk : (rest.length + 1) * (rest.length + 1) < (maxT + 1) ^ 15) :
    ∃ T sm, createStateMachine O maxT minCount n (first :: rest) = some (T, sm) ∧
      Mach maxT rest.length first (first :: rest) T sm := by
  obtain ⟨c1, c2, c3, c4⟩ := collect_spec (n := n) first rest (hE first List.mem_cons_self)
  obtain ⟨m1, m2, m3⟩ := markAll_spec (minCount := minCount) O hE n 0 _ c1 c2 (fun x d _ => c3 x d)
  have hP0 : PInv n rest.length first maxT (first :: rest)
      ⟨markAll O minCount (collect first rest) n 0, ⟨0, fun _ => StateInfo.invalid⟩, []⟩ 0 := by
    constructor
    · exact m1
    · intro x _; exact m2 x
    · intro x; exact (m2 x).1
    · intro x hx; omega
    · intro y hy; simp at hy
    · exact List.Pairwise.nil
    · intro p hp; simp only at hp; omega
    · simp [sumN]
  obtain ⟨s, p1, p2, p3⟩ := privateLoop_spec O hT hE hk n 0 _ (by omega) hP0
  simp only [createStateMachine, p1]
  obtain ⟨D, q1, q2, q3, q4, q5⟩ := publicQueue_spec (n := n) s.tags n 0 [] List.Pairwise.nil
  simp only [Nat.zero_add, sumN, Nat.add_zero, List.append_nil] at q3 q5
  generalize hq : publicQueue n s.tags [] n 0 = q at *
  have hDn : ∀ d, (s.tags d).incoming ≠ 0 → d ∈ D := by
    intro d hd
    rw [q2]
    exact ⟨Nat.zero_le _, by have := hE d (p2.tinv.incE d hd); omega, hd⟩
  have hql : q.length = D.length := by rw [q3.length_eq, List.length_map]
  have hDl : D.length ≤ (D.map (fun d => (s.tags d).incoming)).sum := by
    have : ∀ l : List Nat, (∀ d ∈ l, (s.tags d).incoming ≠ 0) → l.length ≤ (l.map (fun d => (s.tags d).incoming)).sum := by
      intro l; induction l with
      | nil => simp
      | cons x l ih =>
        intro hl
        have h1 := ih (fun d hd => hl d (List.mem_cons_of_mem _ hd))
        have h2 := hl x List.mem_cons_self
        rw [List.map_cons, List.sum_cons, List.length_cons]; omega
    exact this D (fun d hd => ((q2 d).1 hd).2.2)
  have htot := p2.tinv.tot
  have hpsz : s.sm.size ≤ 2 * rest.length := by
    have := p2.size
    have := p2.tinv.len
    omega
  -- the public list
  have hpubl : ∃ sm placed, (if q.length > 0 then (buildList n maxT s.sm q).map (fun b => (b.sm, b.placed))
        else some (s.sm, [])) = some (sm, placed) ∧ (placed.map (·.1)).Nodup ∧
      s.sm.size ≤ sm.size ∧ sm.size ≤ 4 * rest.length + 2 ∧ (∀ i, i < s.sm.size → sm.get i = s.sm.get i) ∧
      (∀ d ∈ D, ∃ p, (Key.tag d, p) ∈ placed ∧ Lst sm maxT s.sm.size sm.size ∧ s.sm.size ≤ p ∧ p < sm.size ∧
        (sm.get p).etag = some d) ∧
      (∀ p, s.sm.size ≤ p → p < sm.size → (∀ e, (sm.get p).etag = some e → e ∈ first :: rest) ∧
        ((sm.get p).etag = none → ∃ b, (sm.get p).base = some b ∧ b < sm.size)) := by
    by_cases h0 : q.length > 0
    · rw [if_pos h0]
      have hqm : ∀ e ∈ q, ∃ d ∈ D, e = ⟨.tag d, (s.tags d).incoming⟩ := by
        intro e he
        rw [q3.mem_iff, List.mem_map] at he
        obtain ⟨d, hd, he⟩ := he
        exact ⟨d, hd, he.symm⟩
      have hkeys : (q.map (·.key)).Perm (D.map Key.tag) := by
        have := q3.map (·.key)
        rw [List.map_map] at this
        exact this
      have hknd : (q.map (·.key)).Nodup := by
        rw [hkeys.nodup_iff, List.nodup_iff_pairwise_ne, List.pairwise_map]
        exact q1.imp (fun hne hh => hne (Key.tag.inj hh))
      obtain ⟨b, W, mb, hb1, hb2, hb3, hb4, hb5⟩ := buildList_spec (n := n) hT s.sm q (List.length_pos_iff.1 h0)
        (by intro e he; obtain ⟨d, _, rfl⟩ := hqm e he; rfl) hknd
        (by intro e he; obtain ⟨d, hd, rfl⟩ := hqm e he
            have := ((q2 d).1 hd).2.2
            simp only; omega) q4
      have hsum : (q.map (·.weight)).sum = (D.map (fun d => (s.tags d).incoming)).sum := by
        have := (q3.map (·.weight)).sum_nat
        rw [List.map_map] at this
        exact this
      have hkk : rest.length + 1 ≤ (rest.length + 1) * (rest.length + 1) := Nat.le_mul_of_pos_left _ (by omega)
      have hL := hb2.lst (by omega) (by rw [hsum]; omega)
      obtain ⟨hprev, hqe, _, hB⟩ := hb2
      rw [hb1]
      have hpk := hB.perm
      rw [hqe] at hpk
      simp only [List.map_nil, List.filter_nil, List.append_nil] at hpk
      have hpnd : (b.placed.map (·.1)).Nodup := by rw [hpk.nodup_iff]; exact hknd
      refine ⟨b.sm, b.placed, rfl, hpnd, by omega, by omega, hB.old, ?_, ?_⟩
      · intro d hd
        have : Key.tag d ∈ b.placed.map (·.1) := by
          rw [hpk.mem_iff, hkeys.mem_iff]; exact List.mem_map.2 ⟨d, hd, rfl⟩
        obtain ⟨⟨k, p⟩, hy, hy2⟩ := List.mem_map.1 this
        simp only at hy2
        subst hy2
        obtain ⟨g1, g2, g3, g4, g5⟩ := hB.tgt _ hy
        rw [hprev] at g1
        exact ⟨p, hy, hL, g1, g2, g4 d rfl⟩
      · intro p h1 h2
        rcases hB.all p (by omega) h2 with ⟨k1, b', k2, k3, k4⟩ | ⟨key, hkey⟩
        · rw [k1]; exact ⟨by simp, fun _ => ⟨b', k2, k4⟩⟩
        · obtain ⟨_, _, g3, g4, g5, g6⟩ := hB.tgt _ hkey
          have hkd : key ∈ D.map Key.tag := by
            rw [← hkeys.mem_iff, ← hpk.mem_iff]; exact List.mem_map.2 ⟨_, hkey, rfl⟩
          obtain ⟨d, hd, rfl⟩ := List.mem_map.1 hkd
          have := g4 d rfl
          simp only at this
          rw [this]
          refine ⟨?_, by simp⟩
          intro e he; cases he
          exact p2.tinv.incE d ((q2 d).1 hd).2.2
    · rw [if_neg h0]
      refine ⟨s.sm, [], rfl, by simp, Nat.le_refl _, by omega, fun _ _ => rfl, ?_, ?_⟩
      · intro d hd
        have : D = [] := List.eq_nil_of_length_eq_zero (by omega)
        rw [this] at hd; simp at hd
      · intro p h1 h2; omega
  obtain ⟨sm, placed, l1, l2, l3, l4, l5, l6, l7⟩ := hpubl
  simp only [l1]
  obtain ⟨f, f1, f2, f3⟩ := assignPublic_spec s.tags placed l2
  rw [f1]
  generalize hTp : (fun x => { s.tags x with smPos := f x } : Nat → TagInfo) = Tp
  have hTpx : ∀ x, (Tp x).dests = (s.tags x).dests ∧ (Tp x).pos = (s.tags x).pos ∧ (Tp x).noopPos = (s.tags x).noopPos ∧
      (Tp x).base = (s.tags x).base ∧ (Tp x).smPos = f x := by
    intro x; rw [← hTp]; exact ⟨rfl, rfl, rfl, rfl, rfl⟩
  have hpub : PubOk maxT s.sm.size Tp sm := by
    intro a d h1 h2
    rw [(hTpx a).1] at h1
    rw [(hTpx a).2.1] at h2
    have han : a < n := hE a (p2.tinv.mem a d h1).1
    have hinc : (s.tags d).incoming ≠ 0 := by
      have e1 := (p2.tinv.cnt a d).1 h1
      have e2 := p2.tinv.inc d
      have e3 := le_sumN (fun a => if (s.tags a).pos d = none then (s.tags a).cnt d else 0) han
      simp only [h2, if_true] at e3
      omega
    obtain ⟨p, k1, k2, k3, k4, k5⟩ := l6 d (hDn d hinc)
    exact ⟨p, k2, by rw [(hTpx d).2.2.2.2]; exact f2 d p k1, k3, k4, k5⟩
  have hxn : ∀ x, n ≤ x → (s.tags x).dests = [] := by
    intro x hx
    cases hd : (s.tags x).dests with
    | nil => rfl
    | cons d ds =>
      have := hE x (p2.tinv.mem x d (by rw [hd]; simp)).1
      omega
  -- private lists in the extended state machine
  have hpriv : ∀ x, (s.tags x).base = none ∧ (∀ d, (s.tags x).pos d = none) ∧ (s.tags x).noopPos = none ∨
      ∃ b top, (s.tags x).base = some b ∧ Lst sm maxT b top ∧
        (∀ d p, (s.tags x).pos d = some p → b ≤ p ∧ p < top ∧ (sm.get p).etag = some d) ∧
        (∀ p, (s.tags x).noopPos = some p → b ≤ p ∧ p < top ∧ (sm.get p).etag = none ∧ (sm.get p).base = none ∧
          (x, p) ∈ s.noops) ∧
        (∀ d ∈ (s.tags x).dests, (s.tags x).pos d = none → (s.tags x).noopPos ≠ none) ∧
        ((s.tags x).noopPos ≠ none → ∃ d ∈ (s.tags x).dests, (s.tags x).pos d = none) ∧
        (∀ d, (s.tags x).dests = [d] → (s.tags x).pos d = some b) := by
    intro x
    by_cases hx : x < n
    · rcases p2.done x hx with h | ⟨b, top, k1, k2, k3, k4, k5⟩
      · exact Or.inl h
      · right
        have hle := k2.le
        refine ⟨b, top, k1, k2.frame l3 ?_, ?_, ?_, k5⟩
        · intro i hi; rw [l5 i (by omega)]; exact ⟨rfl, rfl, fun _ h => h⟩
        · intro d p hp
          obtain ⟨j1, j2, j3⟩ := k3 d p hp
          exact ⟨j1, j2, by rw [l5 p (by omega)]; exact j3⟩
        · intro p hp
          obtain ⟨j1, j2, j3, j4, j5⟩ := k4 p hp
          rw [l5 p (by omega)]
          exact ⟨j1, j2, j3, j4, j5⟩
    · left
      obtain ⟨k1, k2, k3, k4⟩ := p2.fresh x (by omega)
      refine ⟨k3, ?_, k2⟩
      intro d
      cases hp : (s.tags x).pos d with
      | none => rfl
      | some p =>
        have := p2.tinv.posmem x d (by rw [hp]; simp)
        rw [hxn x (by omega)] at this; simp at this
  obtain ⟨sm', n1, n2, n3⟩ := computeNoopBases_spec (T := Tp) O s.noops sm hpub p2.nd (by
    intro y hy
    obtain ⟨e1, e2⟩ := p2.noops y hy
    rcases hpriv y.1 with ⟨_, _, h⟩ | ⟨b, top, k1, k2, k3, k4, k5, k6, k7⟩
    · rw [h] at e1; cases e1
    · obtain ⟨d, hd1, hd2⟩ := k6 (by rw [e1]; simp)
      refine ⟨(k4 _ e1).2.2.2.1, d, ?_, ?_⟩
      · rw [(hTpx y.1).1]; exact hd1
      · rw [(hTpx y.1).2.1]; exact hd2)
  simp only [n1]
  obtain ⟨T', t1, t2⟩ := computeTagBases_spec (maxT := maxT) (pubBase := s.sm.size) (sm := sm') O n 0 Tp (hpub.more n2)
  simp only [t1]
  refine ⟨T', sm', rfl, ?_⟩
  have hT'x : ∀ x, (T' x).dests = (s.tags x).dests ∧ (T' x).pos = (s.tags x).pos ∧ (T' x).noopPos = (s.tags x).noopPos ∧
      (T' x).smPos = f x := by
    intro x; obtain ⟨bb, k1, _⟩ := t2 x
    rw [k1]
    exact ⟨(hTpx x).1, (hTpx x).2.1, (hTpx x).2.2.1, (hTpx x).2.2.2.2⟩
  have hpub' := hpub.more n2
  -- bases
  have hbase : ∀ x b, (T' x).base = some b → ((s.tags x).base = some b) ∨
      ((s.tags x).base = none ∧ BaseOk maxT s.sm.size Tp sm' x b ∧
        ∀ d, (Tp x).dests = [d] → (Tp x).pos d = none → (Tp d).smPos = some b) := by
    intro x b hb
    obtain ⟨bb, k1, k2, k3⟩ := t2 x
    have hbb : bb = some b := by rw [k1] at hb; exact hb
    by_cases hxb : (s.tags x).base = none
    · right
      refine ⟨hxb, ?_⟩
      by_cases hx : x < n
      · rcases k3 (Nat.zero_le _) (by omega) (by rw [(hTpx x).2.2.2.1]; exact hxb) with ⟨_, j2⟩ | ⟨y, j1, j2, j3⟩
        · rw [j2] at hbb; cases hbb
        · rw [j1] at hbb; cases hbb; exact ⟨j2, j3⟩
      · exfalso
        -- a tag which does not occur
        have : n ≤ x := by omega
        have hnb : (T' x).base = (Tp x).base := by
          have : ∀ (m a : Nat) (T T' : Nat → TagInfo), computeTagBases O maxT s.sm.size sm' T m a = some T' →
              a + m ≤ x → (T' x).base = (T x).base := by
            intro m
            induction m with
            | zero => intro a T T' h _; simp only [computeTagBases, Option.some.injEq] at h; rw [h]
            | succ m ih =>
              intro a T T' h ha
              unfold computeTagBases at h
              split at h
              · exact ih (a + 1) T T' h (by omega)
              · split at h
                · cases h
                · rw [ih (a + 1) _ T' h (by omega)]
                  split
                  · rw [updTag_ne _ _ (by omega)]
                  · rfl
          exact this n 0 Tp T' t1 (by omega)
        rw [hnb, (hTpx x).2.2.2.1, hxb] at hb
        cases hb
    · left
      rw [k2 (Or.inr (by rw [(hTpx x).2.2.2.1]; exact hxb)), (hTpx x).2.2.2.1] at hbb
      exact hbb
  have hbasek : ∀ x, (s.tags x).base ≠ none → (T' x).base = (s.tags x).base := by
    intro x hx
    obtain ⟨bb, k1, k2, k3⟩ := t2 x
    rw [k1]
    simp only
    rw [k2 (Or.inr (by rw [(hTpx x).2.2.2.1]; exact hx)), (hTpx x).2.2.2.1]
  have hbaseo : ∀ x d, (s.tags x).base = none → d ∈ (s.tags x).dests → (s.tags x).pos d = none →
      ∃ y, (T' x).base = some y ∧ BaseOk maxT s.sm.size Tp sm' x y := by
    intro x d h1 h2 h3
    obtain ⟨bb, k1, k2, k3⟩ := t2 x
    have hx : x < n := hE x (p2.tinv.mem x d h2).1
    rcases k3 (Nat.zero_le _) (by omega) (by rw [(hTpx x).2.2.2.1]; exact h1) with ⟨j1, _⟩ | ⟨y, j1, j2, j3⟩
    · have := j1 d (by rw [(hTpx x).1]; exact h2)
      rw [(hTpx x).2.1] at this
      exact absurd h3 this
    · exact ⟨y, by rw [k1]; exact j1, j2⟩
  constructor
  · rw [n2.1]; exact l4
  · -- start
    rcases p2.tinv.start with h | ⟨a, h⟩
    · obtain ⟨p, k1, k2, k3, k4, k5⟩ := l6 first (hDn first h)
      exact ⟨p, by rw [n2.1]; exact k4, by rw [(n2.2 p).2.1]; exact k5⟩
    · rcases hpriv a with ⟨_, h2, _⟩ | ⟨b, top, k1, k2, k3, _⟩
      · exact absurd (h2 first) h
      · cases hp : (s.tags a).pos first with
        | none => exact absurd hp h
        | some p =>
          obtain ⟨j1, j2, j3⟩ := k3 first p hp
          have := k2.le
          exact ⟨p, by rw [n2.1]; omega, by rw [(n2.2 p).2.1]; exact j3⟩
  · -- noop
    intro p hp he
    rw [n2.1] at hp
    rw [(n2.2 p).2.1] at he
    by_cases hps : p < s.sm.size
    · obtain ⟨_, k2⟩ := p2.states p hps
      rw [← l5 p hps] at k2
      rcases k2 he with ⟨b, j1, j2⟩ | ⟨x, j1⟩
      · exact ⟨b, (n2.2 p).2.2 b j1, by rw [n2.1]; omega⟩
      · obtain ⟨y, i1, i2⟩ := n3 _ j1
        refine ⟨y, i1, ?_⟩
        obtain ⟨_, b, ⟨t, _, _, _, hh⟩, _⟩ := i2
        exact hh
    · obtain ⟨_, k2⟩ := l7 p (by omega) hp
      obtain ⟨b, j1, j2⟩ := k2 he
      exact ⟨b, (n2.2 p).2.2 b j1, by rw [n2.1]; exact j2⟩
  · -- tag
    intro p e hp he
    rw [n2.1] at hp
    rw [(n2.2 p).2.1] at he
    by_cases hps : p < s.sm.size
    · rw [l5 p hps] at he
      exact (p2.states p hps).1 e he
    · exact (l7 p (by omega) hp).1 e he
  · -- base
    intro e b hb
    rcases hbase e b hb with h | ⟨_, h, _⟩
    · rcases hpriv e with ⟨h2, _⟩ | ⟨b', top, k1, k2, _⟩
      · rw [h2] at h; cases h
      · rw [k1] at h; cases h
        have := k2.le
        have := k2.lt
        rw [n2.1]; omega
    · obtain ⟨_, b', ⟨t, _, _, _, hh⟩, _⟩ := h
      exact hh
  · -- core
    intro a d hd
    rw [(hT'x a).1] at hd
    unfold coreOffsets
    rw [(hT'x a).2.1, (hT'x a).2.2.1]
    rcases hpriv a with ⟨h1, h2, h3⟩ | ⟨b, top, k1, k2, k3, k4, k5, k6, k7⟩
    · rw [h2 d, h3]
      obtain ⟨y, j1, j2⟩ := hbaseo a d h1 hd (h2 d)
      obtain ⟨p, i1, i2, i3, i4, i5⟩ := hpub' a d (by rw [(hTpx a).1]; exact hd) (by rw [(hTpx a).2.1]; exact h2 d)
      obtain ⟨hL', bb, hIB, hcov⟩ := j2
      obtain ⟨o, ws, mids, g1, g2, g3⟩ := climb_cover hL' hIB i3 i4
        (hcov d (by rw [(hTpx a).1]; exact hd) (by rw [(hTpx a).2.1]; exact h2 d) p i2)
      have hsp : (T' d).smPos = some p := by rw [(hT'x d).2.2.2, ← (hTpx d).2.2.2.2]; exact i2
      simp only [hsp, if_pos i4, j1, g1]
      exact ⟨o, ws, mids, y, p, rfl, rfl, g2, i4, i5, g3⟩
    · have hba : (T' a).base = some b := by rw [hbasek a (by rw [k1]; simp), k1]
      have hle := k2.le
      cases hp : (s.tags a).pos d with
      | some p =>
        obtain ⟨j1, j2, j3⟩ := k3 d p hp
        obtain ⟨o, ws, mids, g1, g2, g3⟩ := climb_root (n2.lst k2) j1 j2
        have hps : p < sm'.size := by rw [n2.1]; omega
        simp only [if_pos hps, hba, g1]
        exact ⟨o, ws, mids, b, p, rfl, rfl, g2, hps, by rw [(n2.2 p).2.1]; exact j3, g3⟩
      | none =>
        obtain ⟨p, i1, i2, i3, i4, i5⟩ := hpub' a d (by rw [(hTpx a).1]; exact hd) (by rw [(hTpx a).2.1]; exact hp)
        have hsp : (T' d).smPos = some p := by rw [(hT'x d).2.2.2, ← (hTpx d).2.2.2.2]; exact i2
        cases hn : (s.tags a).noopPos with
        | none => exact absurd hn (k5 d hd hp)
        | some q' =>
          obtain ⟨j1, j2, j3, j4, j5⟩ := k4 q' hn
          obtain ⟨x, x1, x2⟩ := n3 _ j5
          simp only at x1 x2
          obtain ⟨hL', bb, hIB, hcov⟩ := x2
          obtain ⟨o, ws, mids, g1, g2, g3⟩ := climb_root (n2.lst k2) j1 j2
          obtain ⟨o2, ws2, mids2, r1, r2, r3⟩ := climb_cover hL' hIB i3 i4
            (hcov d (by rw [(hTpx a).1]; exact hd) (by rw [(hTpx a).2.1]; exact hp) p i2)
          simp only [hsp, if_pos i4, hba, g1, x1, r1]
          refine ⟨o, ws ++ o2 :: ws2, mids ++ q' :: mids2, b, p, rfl, rfl, ?_, i4, i5, ?_⟩
          · exact g2.append (.cons (by rw [n2.1]; omega) (by rw [(n2.2 q').2.1]; exact j3) x1 r2)
          · intro o' ho
            rw [← List.cons_append] at ho
            rcases List.mem_append.1 ho with ho | ho
            · exact g3 o' ho
            · exact r3 o' ho
  · -- one
    intro a d hd
    rw [(hT'x a).1] at hd
    rcases hpriv a with ⟨h1, h2, h3⟩ | ⟨b, top, k1, k2, k3, k4, k5, k6, k7⟩
    · obtain ⟨y, j1, j2⟩ := hbaseo a d h1 (by rw [hd]; simp) (h2 d)
      obtain ⟨p, i1, i2, i3, i4, i5⟩ := hpub' a d (by rw [(hTpx a).1, hd]; simp) (by rw [(hTpx a).2.1]; exact h2 d)
      rcases hbase a y j1 with h | ⟨_, _, h⟩
      · rw [h1] at h; cases h
      · have := h d (by rw [(hTpx a).1]; exact hd) (by rw [(hTpx a).2.1]; exact h2 d)
        rw [i2] at this; cases this
        exact ⟨_, j1, i4, i5⟩
    · have hba : (T' a).base = some b := by rw [hbasek a (by rw [k1]; simp), k1]
      have hp := k7 d hd
      obtain ⟨j1, j2, j3⟩ := k3 d b hp
      have hle := k2.le
      exact ⟨b, hba, by rw [n2.1]; omega, by rw [(n2.2 b).2.1]; exact j3⟩
  · intro i a d h1 h2
    rw [(hT'x a).1, p3 a, m3 a]
    exact c4 i a d h1 h2

end Riegeli.Tr

import Verif.TrStates
import Verif.TrSize
/-!
# Transposed chunks: what the encoder writes drives the decoder through the encoded tags
-/
namespace Riegeli.Tr

theorem climb_length (maxT : Nat) (sm : SM) (base : Option Nat) : ∀ (room pos : Nat) (w l : List Nat),
    climb maxT sm base room pos w = some l → l.length ≤ w.length + room
  | 0, pos, w, l, h => by cases h
  | room + 1, pos, w, l, h => by
    unfold climb at h
    split at h
    · cases h; simp
    · split at h
      · cases h
      · split at h
        · cases h
        · split at h
          · have := climb_length maxT sm base room _ _ _ h
            simp only [List.length_cons] at this
            omega
          · cases h

theorem transitionOffsets_length {maxT : Nat} {sm : SM} {T : Nat → TagInfo} {a d : Nat} {l : List Nat}
    (h : transitionOffsets maxT sm T a d = some l) : l.length ≤ 64 := by
  unfold transitionOffsets at h
  simp only at h
  split at h
  · split at h
    · split at h
      · have := climb_length _ _ _ _ _ _ _ h; simp [kWriteBufSize] at this; omega
      · cases h
    · split at h
      · cases h
      · split at h
        · split at h
          · have := climb_length _ _ _ _ _ _ _ h; simp [kWriteBufSize] at this; omega
          · split at h
            · cases h
            · rename_i h1
              split at h
              · cases h
              · rename_i h2
                cases h
                have e1 := climb_length _ _ _ _ _ _ _ h1
                have e2 := climb_length _ _ _ _ _ _ _ h2
                simp [kWriteBufSize] at e1 e2
                simp; omega
        · cases h
  · split at h
    · cases h; simp
    · cases h

theorem allOffsets_length {maxT : Nat} {sm : SM} {T : Nat → TagInfo} : ∀ (rest : List Nat) (prev : Nat) {l : List Nat},
    allOffsets maxT sm T prev rest = some l → l.length ≤ 64 * rest.length
  | [], prev, l, h => by cases h; simp
  | d :: rest, prev, l, h => by
    unfold allOffsets at h
    split at h
    · cases h
    · rename_i h1
      split at h
      · cases h
      · rename_i h2
        cases h
        have e1 := transitionOffsets_length h1
        have e2 := allOffsets_length rest d h2
        simp only [List.length_append, List.length_cons]; omega

theorem packOffsets_length : ∀ (l : List Nat) (last : Option Nat), (packOffsets last l).length ≤ l.length + 1
  | [], none => by simp [packOffsets]
  | [], some _ => by simp [packOffsets]
  | w :: ws, none => by
    have := packOffsets_length ws (some (w * 4)); simp only [packOffsets, List.length_cons]; omega
  | w :: ws, some l => by
    simp only [packOffsets]
    split
    · have := packOffsets_length ws (some (l + 1)); simp only [List.length_cons]; omega
    · have := packOffsets_length ws (some (w * 4)); simp only [List.length_cons]; omega

theorem linked_nodesOf (s : ESt) (T : Nat → TagInfo) (sm : SM) : Linked (nodeAt (nodesOf s T sm)) T sm := by
  intro p hp
  rw [nodesOf_at s T sm hp]
  exact ⟨rfl, rfl⟩

theorem findFirst_spec {sm : SM} {e p : Nat} (hp : p < sm.size) (he : (sm.get p).etag = some e) :
    ∃ q, findFirst sm e = some q ∧ q < sm.size ∧ (sm.get q).etag = some e := by
  unfold findFirst
  cases h : (List.range sm.size).find? (fun i => (sm.get i).etag == some e) with
  | none =>
    have := List.find?_eq_none.1 h p (List.mem_range.2 hp)
    simp [he] at this
  | some q =>
    refine ⟨q, rfl, List.mem_range.1 (List.mem_of_find?_eq_some h), ?_⟩
    simpa using List.find?_some h

/-- What the encoder computes before writing. -/
structure Drive (O : HashOrder) (s : ESt) (T : Nat → TagInfo) (sm : SM) (first : Nat) (offs ps : List Nat) : Prop where
  create : ∃ T0, createStateMachine O kMaxTransition kMinCountForState s.tags.length s.enc = some (T0, sm) ∧
    withDummyDest T0 s.enc = T
  size : sm.size ≤ 4 * s.enc.length + 2
  tag : ∀ p e, p < sm.size → (sm.get p).etag = some e → e < s.tags.length
  base : ∀ p, p < sm.size → stateBase T sm.size (sm.get p) < 2 * sm.size
  position : firstPosition sm s.enc = some first
  lt : first < sm.size
  trans : writeTransitions kMaxTransition sm T s.enc = some (packOffsets none offs)
  le : ∀ o ∈ offs, o ≤ 63
  count : offs.length ≤ 64 * s.enc.length
  path : Path (nodeAt (nodesOf s T sm)) first offs ps
  tags : ps.filterMap (fun i => (sm.get i).etag) = s.enc
  inside : ∀ i ∈ ps, i < sm.size
  loop : containsImplicitLoop (nodeAt (nodesOf s T sm)) (sm.size + 255) = false

theorem drive (O : HashOrder) {s : ESt} (hg : Good s) (hn : s.enc.length ≤ 2 ^ 29 - 1) :
    ∃ T sm first offs ps, Drive O s T sm first offs ps := by
  cases henc : s.enc with
  | nil =>
    let sm : SM := ⟨1, fun _ => ⟨none, some 0, none⟩⟩
    let T : Nat → TagInfo := fun _ => TagInfo.init
    have hL := linked_nodesOf s T sm
    have h0 := hL 0 (by decide)
    have hb : stateBase T sm.size (sm.get 0) = 0 := rfl
    rw [hb] at h0
    have hi : (nodeAt (nodesOf s T sm) 0).implicit = false := by rw [h0.1]; rfl
    have hall : ∀ p, (nodeAt (nodesOf s T sm) p).implicit = false := by
      intro p
      by_cases hp : p < sm.size
      · have : p = 0 := by simp only [sm] at hp; omega
        rw [this]; exact hi
      · rw [nodesOf_out s T sm (by omega)]; rfl
    refine ⟨T, sm, 0, [], [0], ⟨T, by rw [henc]; rfl, by rw [henc]; rfl⟩, ?_, ?_, ?_, ?_, ?_, ?_, ?_, ?_, Path.done hi, ?_, ?_, ?_⟩
    · simp [sm, henc]
    · intro p e hp he; cases he
    · intro p hp
      have : p = 0 := by simp only [sm] at hp; omega
      subst this
      show 0 < 2 * 1
      omega
    · rw [henc]; rfl
    · show 0 < 1; omega
    · rw [henc]; rfl
    · simp
    · simp
    · rw [henc]; rfl
    · intro i hi; simp at hi; subst hi; show 0 < 1; omega
    · refine containsImplicitLoop_false (rank := fun _ => 0) ?_
      intro p hp
      rw [hall p] at hp; cases hp
  | cons first rest =>
    have hE : ∀ e ∈ first :: rest, e < s.tags.length := by rw [← henc]; exact hg.enc
    have hlen : s.enc.length = rest.length + 1 := by rw [henc]; rfl
    have hsq : (rest.length + 1) * (rest.length + 1) < (63 + 1) ^ 15 := by
      have : (rest.length + 1) * (rest.length + 1) ≤ 2 ^ 29 * 2 ^ 29 := Nat.mul_le_mul (by omega) (by omega)
      exact Nat.lt_of_le_of_lt this (by decide)
    obtain ⟨T, sm, hc, hM⟩ := createStateMachine_spec (n := s.tags.length) (maxT := 63) (minCount := kMinCountForState) O
      (by omega) first rest hE hsq
    have hsize := hM.size
    have hsz : 2 * sm.size ≤ 2 ^ 32 := by omega
    obtain ⟨last, hlast⟩ : ∃ last, (first :: rest).getLast? = some last := ⟨_, List.getLast?_eq_some_getLast (by simp)⟩
    have hwd : withDummyDest T s.enc = addDummyDest T last := by unfold withDummyDest; rw [henc, hlast]
    have hL := linked_nodesOf s (addDummyDest T last) sm
    obtain ⟨p0, hp0, he0⟩ := hM.start
    obtain ⟨q, hq, hq1, hq2⟩ := findFirst_spec hp0 he0
    obtain ⟨offs, ps, g1, g2, g3, g4, g5⟩ := allOffsets_path hM hsz hL rest first q hM.nxt hlast hq1 hq2
    refine ⟨addDummyDest T last, sm, q, offs, ps, ⟨T, by rw [henc]; exact hc, hwd⟩, ?_, ?_, ?_, ?_, hq1, ?_, g2, ?_, g3, ?_, g5, ?_⟩
    · omega
    · intro p e hp he; exact hE e (hM.tag p e hp he)
    · intro p hp
      unfold stateBase
      cases he : (sm.get p).etag with
      | none =>
        obtain ⟨b, h1, h2⟩ := hM.noop p hp he
        simp only [h1, Option.getD_some]; omega
      | some e =>
        simp only
        cases hb : (addDummyDest T last e).base with
        | none => simp only; omega
        | some b =>
          simp only
          have hb' : (T e).base = some b := by
            rw [← hb]; exact ((addDummyDest_fields T last e).1).symm
          have := hM.base e b hb'
          refine Nat.lt_of_le_of_lt (Nat.mod_le _ _) ?_
          split <;> omega
    · rw [henc]; exact hq
    · rw [henc]
      show (allOffsets kMaxTransition sm (addDummyDest T last) first rest).map (packOffsets none) = _
      rw [show kMaxTransition = 63 from rfl, g1]; rfl
    · have := allOffsets_length rest first g1
      omega
    · rw [henc]; exact g4
    · refine no_implicit_loop hM hsz hL hlast ?_ (by omega)
      intro p hp; rw [nodesOf_out s _ sm hp]; rfl

end Riegeli.Tr

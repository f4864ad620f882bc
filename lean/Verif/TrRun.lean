import Verif.TrMachine
import Verif.TrImplicit
/-!
# Transposed chunks: the transitions which the encoder writes lead the decoder through the tags
-/
namespace Riegeli.Tr

theorem addDummyDest_fields (T : Nat → TagInfo) (last x : Nat) :
    (addDummyDest T last x).base = (T x).base ∧ (addDummyDest T last x).pos = (T x).pos ∧
    (addDummyDest T last x).smPos = (T x).smPos ∧ (addDummyDest T last x).noopPos = (T x).noopPos ∧
    ((addDummyDest T last x).dests.length = 1 → (addDummyDest T last x).dests = (T x).dests) := by
  unfold addDummyDest
  split
  · unfold updTag
    split
    · rename_i h hx
      subst hx
      refine ⟨rfl, rfl, rfl, rfl, ?_⟩
      intro hl
      simp only [List.length_append, List.length_singleton] at hl
      omega
    · exact ⟨rfl, rfl, rfl, rfl, fun _ => rfl⟩
  · exact ⟨rfl, rfl, rfl, rfl, fun _ => rfl⟩

theorem addDummyDest_last (T : Nat → TagInfo) (last : Nat) : (addDummyDest T last last).dests.length ≠ 1 := by
  unfold addDummyDest
  split
  · rename_i h
    unfold updTag
    simp only [if_true, List.length_append, List.length_singleton]
    omega
  · assumption

theorem coreOffsets_dummy (maxT : Nat) (sm : SM) (T : Nat → TagInfo) (last a d : Nat) :
    coreOffsets maxT sm (addDummyDest T last) a d = coreOffsets maxT sm T a d := by
  unfold coreOffsets
  obtain ⟨h1, h2, h3, h4, _⟩ := addDummyDest_fields T last a
  obtain ⟨_, _, k3, _, _⟩ := addDummyDest_fields T last d
  rw [h1, h2, h4, k3]

/-- The transitions of the nodes of the decoder are those of the states (`transpose_decoder.cc:721-733`). -/
def Linked (nodes : Nat → Node) (T : Nat → TagInfo) (sm : SM) : Prop :=
  ∀ p, p < sm.size →
    (nodes p).implicit = decide (sm.size ≤ stateBase T sm.size (sm.get p)) ∧
    (nodes p).next = (if sm.size ≤ stateBase T sm.size (sm.get p) then stateBase T sm.size (sm.get p) - sm.size
      else stateBase T sm.size (sm.get p))

section
variable {maxT k first last : Nat} {E : List Nat} {T : Nat → TagInfo} {sm : SM} {nodes : Nat → Node}

theorem Linked.noop (hM : Mach maxT k first E T sm) (hL : Linked nodes (addDummyDest T last) sm) {p b : Nat}
    (hp : p < sm.size) (he : (sm.get p).etag = none) (hb : (sm.get p).base = some b) :
    (nodes p).implicit = false ∧ (nodes p).next = b := by
  obtain ⟨b', h1, h2⟩ := hM.noop p hp he
  rw [hb] at h1; cases h1
  have hs : stateBase (addDummyDest T last) sm.size (sm.get p) = b := by simp [stateBase, he, hb]
  obtain ⟨l1, l2⟩ := hL p hp
  rw [hs] at l1 l2
  rw [if_neg (by omega)] at l2
  exact ⟨by rw [l1]; simp; omega, l2⟩

theorem Linked.explicit (hM : Mach maxT k first E T sm) (hsz : 2 * sm.size ≤ 2 ^ 32)
    (hL : Linked nodes (addDummyDest T last) sm) {p e : Nat}
    (hp : p < sm.size) (he : (sm.get p).etag = some e) (hd : (addDummyDest T last e).dests.length ≠ 1) :
    (nodes p).implicit = false ∧ ∀ b, (T e).base = some b → (nodes p).next = b := by
  have hbase := (addDummyDest_fields T last e).1
  obtain ⟨l1, l2⟩ := hL p hp
  cases hb : (T e).base with
  | none =>
    have hs : stateBase (addDummyDest T last) sm.size (sm.get p) = 0 := by
      simp only [stateBase, he, hbase, hb]
    rw [hs] at l1
    exact ⟨by rw [l1]; simp; omega, by simp⟩
  | some b =>
    have hlt := hM.base e b hb
    have hs : stateBase (addDummyDest T last) sm.size (sm.get p) = b := by
      simp only [stateBase, he, hbase, hb, if_neg hd, Nat.add_zero]
      exact Nat.mod_eq_of_lt (by omega)
    rw [hs] at l1 l2
    rw [if_neg (by omega)] at l2
    refine ⟨by rw [l1]; simp; omega, ?_⟩
    intro b' hb'; cases hb'; exact l2

theorem Linked.implicit (hM : Mach maxT k first E T sm) (hsz : 2 * sm.size ≤ 2 ^ 32)
    (hL : Linked nodes (addDummyDest T last) sm) {p e b : Nat}
    (hp : p < sm.size) (he : (sm.get p).etag = some e) (hd : (addDummyDest T last e).dests.length = 1)
    (hb : (T e).base = some b) :
    (nodes p).implicit = true ∧ (nodes p).next = b := by
  have hbase := (addDummyDest_fields T last e).1
  obtain ⟨l1, l2⟩ := hL p hp
  have hlt := hM.base e b hb
  have hs : stateBase (addDummyDest T last) sm.size (sm.get p) = b + sm.size := by
    simp only [stateBase, he, hbase, hb, if_pos hd]
    exact Nat.mod_eq_of_lt (by omega)
  rw [hs] at l1 l2
  rw [if_pos (by omega)] at l2
  exact ⟨by rw [l1]; simp, by rw [l2]; omega⟩

/-- `kNoOp` states are passed. -/
theorem Tail.path (hM : Mach maxT k first E T sm) (hL : Linked nodes (addDummyDest T last) sm)
    {p q : Nat} {ws mids offs ps : List Nat} (ht : Tail sm p ws q mids) (hp : Path nodes q offs ps) :
    Path nodes p (ws ++ offs) (mids ++ ps) ∧ mids.filterMap (fun i => (sm.get i).etag) = [] ∧
      ∀ i ∈ mids, i < sm.size := by
  induction ht with
  | nil => exact ⟨hp, rfl, by simp⟩
  | @cons p o b q w mids h1 h2 h3 _ ih =>
    obtain ⟨i1, i2, i3⟩ := ih hp
    obtain ⟨n1, n2⟩ := hL.noop hM h1 h2 h3
    refine ⟨?_, ?_, ?_⟩
    · refine Path.step n1 ?_
      rw [n2]; exact i1
    · rw [List.filterMap_cons, h2]; exact i2
    · intro i hi
      rcases List.mem_cons.1 hi with rfl | hi
      · exact h1
      · exact i3 i hi

/-- The offsets written lead from state to state through the tags. -/
theorem allOffsets_path (hM : Mach maxT k first E T sm) (hsz : 2 * sm.size ≤ 2 ^ 32)
    (hL : Linked nodes (addDummyDest T last) sm) :
    ∀ (rest : List Nat) (prev p : Nat),
      (∀ i a d, (prev :: rest)[i]? = some a → (prev :: rest)[i + 1]? = some d → d ∈ (T a).dests) →
      (prev :: rest).getLast? = some last → p < sm.size → (sm.get p).etag = some prev →
      ∃ offs ps, allOffsets maxT sm (addDummyDest T last) prev rest = some offs ∧ (∀ o ∈ offs, o ≤ maxT) ∧
        Path nodes p offs ps ∧ ps.filterMap (fun i => (sm.get i).etag) = prev :: rest ∧ ∀ i ∈ ps, i < sm.size
  | [], prev, p, _, hlast, hp, he => by
    simp only [List.getLast?_singleton, Option.some.injEq] at hlast
    subst hlast
    refine ⟨[], [p], rfl, by simp, Path.done (hL.explicit hM hsz hp he (addDummyDest_last T prev)).1, ?_, ?_⟩
    · simp [he]
    · simp [hp]
  | d :: rest, prev, p, hcons, hlast, hp, he => by
    have hd : d ∈ (T prev).dests := hcons 0 prev d rfl rfl
    have hcons' : ∀ i a d', (d :: rest)[i]? = some a → (d :: rest)[i + 1]? = some d' → d' ∈ (T a).dests :=
      fun i a d' h1 h2 => hcons (i + 1) a d' h1 h2
    have hlast' : (d :: rest).getLast? = some last := by
      rw [List.getLast?_cons_cons] at hlast; exact hlast
    unfold allOffsets
    rw [transitionOffsets_eq]
    by_cases hone : (addDummyDest T last prev).dests.length ≠ 1
    · rw [if_pos hone, coreOffsets_dummy]
      obtain ⟨o, ws, mids, b, q, h1, h2, h3, h4, h5, h6⟩ := hM.core prev d hd
      obtain ⟨offs, ps, g1, g2, g3, g4, g5⟩ := allOffsets_path hM hsz hL rest d q hcons' hlast' h4 h5
      obtain ⟨t1, t2, t3⟩ := h3.path hM hL g3
      obtain ⟨n1, n2⟩ := hL.explicit hM hsz hp he hone
      rw [h1]
      simp only [g1]
      refine ⟨o :: ws ++ offs, p :: (mids ++ ps), rfl, ?_, ?_, ?_, ?_⟩
      · intro x hx
        rcases List.mem_append.1 hx with hx | hx
        · exact h6 x hx
        · exact g2 x hx
      · refine Path.step n1 ?_
        rw [n2 b h2]; exact t1
      · rw [List.filterMap_cons, he]
        simp only [List.filterMap_append, t2, g4, List.nil_append]
      · intro i hi
        rcases List.mem_cons.1 hi with rfl | hi
        · exact hp
        rcases List.mem_append.1 hi with hi | hi
        · exact t3 i hi
        · exact g5 i hi
    · have hone' : (addDummyDest T last prev).dests.length = 1 := by omega
      rw [if_neg hone]
      have hds := (addDummyDest_fields T last prev).2.2.2.2 hone'
      have hbase := (addDummyDest_fields T last prev).1
      rw [hds] at hone'
      have hds1 : (T prev).dests = [d] := by
        match hl : (T prev).dests, hone', hd with
        | [x], _, hd => rw [List.mem_singleton] at hd; rw [hd]
      obtain ⟨b, b1, b2, b3⟩ := hM.one prev d hds1
      obtain ⟨offs, ps, g1, g2, g3, g4, g5⟩ := allOffsets_path hM hsz hL rest d b hcons' hlast' b2 b3
      rw [hbase, b1]
      simp only [Option.bind_some, b3, if_true, g1]
      obtain ⟨n1, n2⟩ := hL.implicit hM hsz hp he (by rw [hds]; exact hone') b1
      refine ⟨offs, p :: ps, rfl, g2, Path.implicit n1 (by rw [n2]; exact g3), ?_, ?_⟩
      · rw [List.filterMap_cons, he]; simp only [g4]
      · intro i hi
        rcases List.mem_cons.1 hi with rfl | hi
        · exact hp
        · exact g5 i hi

/-- There is no loop of implicit transitions. -/
theorem no_implicit_loop (hM : Mach maxT k first E T sm) (hsz : 2 * sm.size ≤ 2 ^ 32)
    (hL : Linked nodes (addDummyDest T last) sm) (hlast : E.getLast? = some last)
    (hout : ∀ p, sm.size ≤ p → (nodes p).implicit = false) {total : Nat} (ht : sm.size ≤ total) :
    containsImplicitLoop nodes total = false := by
  refine containsImplicitLoop_false (rank := fun p => match (sm.get p).etag with
    | none => 0
    | some e => E.reverse.idxOf e) ?_
  intro p hi
  have hp : p < sm.size := by
    apply Nat.lt_of_not_le
    intro h; rw [hout p h] at hi; cases hi
  cases he : (sm.get p).etag with
  | none =>
    obtain ⟨b, h1, h2⟩ := hM.noop p hp he
    rw [(hL.noop hM hp he h1).1] at hi; cases hi
  | some e =>
    by_cases hone : (addDummyDest T last e).dests.length ≠ 1
    · rw [(hL.explicit hM hsz hp he hone).1] at hi; cases hi
    · have hone' : (addDummyDest T last e).dests.length = 1 := by omega
      have hne : e ≠ last := by
        intro h; rw [h] at hone'; exact addDummyDest_last T last hone'
      have hds := (addDummyDest_fields T last e).2.2.2.2 hone'
      have hm : e ∈ E.reverse := List.mem_reverse.2 (hM.tag p e hp he)
      have hj := List.idxOf_lt_length_iff.2 hm
      have hje : E.reverse[E.reverse.idxOf e] = e := List.getElem_idxOf hj
      have hj0 : E.reverse.idxOf e ≠ 0 := by
        intro h0
        have : E.reverse[0]? = some e := by rw [← h0, List.getElem?_eq_getElem hj, hje]
        rw [← List.head?_eq_getElem?, List.head?_reverse, hlast] at this
        cases this; exact hne rfl
      rw [List.length_reverse] at hj
      have ha : E[E.length - 1 - E.reverse.idxOf e]? = some e := by
        rw [List.getElem_reverse] at hje
        rw [List.getElem?_eq_getElem (by omega), hje]
      have hnext : E.length - 1 - E.reverse.idxOf e + 1 < E.length := by omega
      have hd := hM.nxt _ e _ ha (List.getElem?_eq_getElem hnext)
      rw [hds] at hone'
      obtain ⟨d, hd1⟩ : ∃ d, (T e).dests = [d] := by
        match hl : (T e).dests, hone' with
        | [x], _ => exact ⟨x, rfl⟩
      rw [hd1, List.mem_singleton] at hd
      obtain ⟨b, b1, b2, b3⟩ := hM.one e d hd1
      obtain ⟨n1, n2⟩ := hL.implicit hM hsz hp he (by rw [hds]; exact hone') b1
      rw [n2]
      refine ⟨?_, by omega⟩
      simp only [b3]
      have hr : E.reverse[E.reverse.idxOf e - 1]? = some d := by
        rw [List.getElem?_reverse (by omega), ← hd, ← List.getElem?_eq_getElem hnext]
        congr 1; omega
      have hlt : E.reverse.idxOf e - 1 < E.reverse.length := by rw [List.length_reverse]; omega
      rw [List.getElem?_eq_getElem hlt, Option.some.injEq] at hr
      have : E.reverse.idxOf d ≤ E.reverse.idxOf e - 1 := by
        apply Nat.le_of_not_lt
        intro h
        have h2 := List.not_of_lt_findIdx h
        rw [hr] at h2; simp at h2
      omega
end

end Riegeli.Tr

import Verif.TrPath
/-!
# Transposed chunks: loops of implicit transitions, termination of decoding
-/
namespace Riegeli.Tr

/-- Number of nodes below `total` which were not visited. -/
def unvisited (total : Nat) (ids : Nat → Nat) : Nat := ((List.range total).filter (fun x => ids x = 0)).length

theorem filter_length_lt {α : Type} {p q : α → Bool} {l : List α} (h : ∀ x ∈ l, q x = true → p x = true) {y : α}
    (hy : y ∈ l) (hp : p y = true) (hq : q y = false) : (l.filter q).length < (l.filter p).length := by
  induction l with
  | nil => simp at hy
  | cons x l ih =>
    have hle : (l.filter q).length ≤ (l.filter p).length := by
      clear ih hy
      induction l with
      | nil => simp
      | cons z l ih2 =>
        have := ih2 (fun w hw => h w (by
          rcases List.mem_cons.1 hw with rfl | hw
          · simp
          · simp [hw]))
        have hz := h z (by simp)
        simp only [List.filter_cons]
        cases hqz : q z <;> cases hpz : p z <;> simp_all <;> omega
    simp only [List.filter_cons]
    rcases List.mem_cons.1 hy with rfl | hy
    · rw [hp, hq]; simp; omega
    · have := ih (fun w hw => h w (List.mem_cons_of_mem _ hw)) hy
      have hx := h x (by simp)
      cases hqx : q x <;> cases hpx : p x <;> simp_all <;> omega

theorem unvisited_set {total : Nat} {ids : Nat → Nat} {j id : Nat} (hj : j < total) (h0 : ids j = 0) (hid : id ≠ 0) :
    unvisited total (fun x => if x = j then id else ids x) < unvisited total ids := by
  unfold unvisited
  apply filter_length_lt (y := j)
  · intro x _ hx
    simp only [decide_eq_true_eq] at hx ⊢
    split at hx
    · exact absurd hx hid
    · exact hx
  · simpa using hj
  · simpa using h0
  · simpa using hid

theorem unvisited_le (total : Nat) (ids : Nat → Nat) : unvisited total ids ≤ total := by
  unfold unvisited
  exact Nat.le_trans (List.length_filter_le _ _) (by simp)

/-- If implicit transitions decrease something, the walk finds no loop. -/
theorem implicitWalk_false {nodes : Nat → Node} {rank : Nat → Nat} {total : Nat}
    (hrank : ∀ i, (nodes i).implicit = true → rank (nodes i).next < rank i ∧ (nodes i).next < total) {id : Nat}
    (hid : id ≠ 0) : ∀ (fuel i : Nat) (ids : Nat → Nat), (∀ x, ids x ≤ id) → (∀ x, ids x = id → rank i ≤ rank x) →
    unvisited total ids < fuel →
    (implicitWalk nodes id fuel i ids).1 = false ∧ ∀ x, (implicitWalk nodes id fuel i ids).2 x ≤ id := by
  intro fuel
  induction fuel with
  | zero => intro i ids _ _ h; omega
  | succ fuel ih =>
    intro i ids hle hr hu
    unfold implicitWalk
    split
    · rename_i hi
      obtain ⟨h1, h2⟩ := hrank i hi
      simp only
      rw [if_neg (fun h => by have := hr _ h; omega)]
      split
      · exact ⟨rfl, hle⟩
      · rename_i h0
        simp only [ne_eq, Decidable.not_not] at h0
        apply ih
        · intro x; split
          · exact Nat.le_refl _
          · exact hle x
        · intro x hx
          split at hx
          · rename_i hxj; rw [hxj]; exact Nat.le_refl _
          · have := hr x hx; omega
        · have := unvisited_set (id := id) h2 h0 hid
          omega
    · exact ⟨rfl, hle⟩

theorem implicitLoop_false {nodes : Nat → Node} {rank : Nat → Nat} {total : Nat}
    (hrank : ∀ i, (nodes i).implicit = true → rank (nodes i).next < rank i ∧ (nodes i).next < total) :
    ∀ (n i id : Nat) (ids : Nat → Nat), id ≠ 0 → (∀ x, ids x < id) → implicitLoop nodes total n i id ids = false := by
  intro n
  induction n with
  | zero => intros; rfl
  | succ n ih =>
    intro i id ids hid hlt
    unfold implicitLoop
    split
    · exact ih _ _ _ hid hlt
    · have h := implicitWalk_false hrank hid (total + 1) i (fun x => if x = i then id else ids x)
        (by intro x; split
            · exact Nat.le_refl _
            · exact Nat.le_of_lt (hlt x))
        (by intro x hx; split at hx
            · rename_i hxi; rw [hxi]; exact Nat.le_refl _
            · have := hlt x; omega)
        (by have := unvisited_le total (fun x => if x = i then id else ids x); omega)
      generalize hw : implicitWalk nodes id (total + 1) i (fun x => if x = i then id else ids x) = w at h
      obtain ⟨b, ids'⟩ := w
      simp only at h
      rw [h.1]
      simp only
      exact ih _ _ _ (by omega) (fun x => by have := h.2 x; omega)

theorem containsImplicitLoop_false {nodes : Nat → Node} {rank : Nat → Nat} {total : Nat}
    (hrank : ∀ i, (nodes i).implicit = true → rank (nodes i).next < rank i ∧ (nodes i).next < total) :
    containsImplicitLoop nodes total = false :=
  implicitLoop_false hrank _ _ _ _ (by omega) (by omega)

/-! ## Termination -/

/-- Following implicit transitions from a node ends. -/
inductive Ends (nodes : Nat → Node) : Nat → Prop
  | stop {i : Nat} : (nodes i).implicit = false → Ends nodes i
  | next {i : Nat} : Ends nodes (nodes i).next → Ends nodes i

theorem implicitWalk_ends {nodes : Nat → Node} {id : Nat} (hid : id ≠ 0) : ∀ (fuel i : Nat) (ids : Nat → Nat),
    (∀ x, ids x ≠ 0 → ids x ≠ id → Ends nodes x) →
    (implicitWalk nodes id fuel i ids).1 = false →
    Ends nodes i ∧ ∀ x, (implicitWalk nodes id fuel i ids).2 x ≠ 0 → Ends nodes x ∨ ids x = id := by
  intro fuel
  induction fuel with
  | zero => intro i ids _ h; simp [implicitWalk] at h
  | succ fuel ih =>
    intro i ids hids h
    unfold implicitWalk at h ⊢
    split at h
    · rename_i hi
      rw [if_pos hi]
      simp only at h ⊢
      split at h
      · cases h
      · rename_i hne
        rw [if_neg hne]
        split at h
        · rename_i h0
          rw [if_pos h0]
          refine ⟨.next (hids _ h0 hne), ?_⟩
          intro x hx
          by_cases hxi : ids x = id
          · exact Or.inr hxi
          · exact Or.inl (hids x hx hxi)
        · rename_i h0
          rw [if_neg h0]
          have := ih _ _ (by
            intro x hx hxi
            split at hx
            · rename_i hxj; rw [if_pos hxj] at hxi; exact absurd rfl hxi
            · rename_i hxj; rw [if_neg hxj] at hxi; exact hids x hx hxi) h
          refine ⟨.next this.1, ?_⟩
          intro x hx
          rcases this.2 x hx with h1 | h1
          · exact Or.inl h1
          · split at h1
            · rename_i hxj; rw [hxj]; exact Or.inl this.1
            · exact Or.inr h1
    · rename_i hi
      rw [if_neg hi]
      refine ⟨.stop (by simpa using hi), ?_⟩
      intro x hx
      by_cases hxi : ids x = id
      · exact Or.inr hxi
      · exact Or.inl (hids x hx hxi)

theorem implicitWalk_le {nodes : Nat → Node} {id : Nat} : ∀ (fuel i : Nat) (ids : Nat → Nat),
    (∀ x, ids x ≤ id) → ∀ x, (implicitWalk nodes id fuel i ids).2 x ≤ id := by
  intro fuel
  induction fuel with
  | zero => intro i ids h x; exact h x
  | succ fuel ih =>
    intro i ids h
    unfold implicitWalk
    split
    · simp only
      split
      · exact h
      · split
        · exact h
        · apply ih
          intro x; split
          · exact Nat.le_refl _
          · exact h x
    · exact h

theorem implicitWalk_keep {nodes : Nat → Node} {id : Nat} (hid : id ≠ 0) : ∀ (fuel i : Nat) (ids : Nat → Nat) (x : Nat),
    ids x ≠ 0 → (implicitWalk nodes id fuel i ids).2 x ≠ 0 := by
  intro fuel
  induction fuel with
  | zero => intro i ids x h; exact h
  | succ fuel ih =>
    intro i ids x h
    unfold implicitWalk
    split
    · simp only
      split
      · exact h
      · split
        · exact h
        · apply ih
          split
          · exact hid
          · exact h
    · exact h

theorem implicitLoop_ends {nodes : Nat → Node} {total : Nat} : ∀ (n i id : Nat) (ids : Nat → Nat), id ≠ 0 →
    (∀ x, ids x < id) → (∀ x, ids x ≠ 0 → Ends nodes x) → implicitLoop nodes total n i id ids = false →
    ∀ x, i ≤ x → x < i + n → Ends nodes x := by
  intro n
  induction n with
  | zero => intro i id ids _ _ _ _ x h1 h2; omega
  | succ n ih =>
    intro i id ids hid hlt he h x h1 h2
    unfold implicitLoop at h
    split at h
    · rename_i h0
      by_cases hx : x = i
      · rw [hx]; exact he i h0
      · exact ih _ _ _ hid hlt he h x (by omega) (by omega)
    · rename_i h0
      have hl := implicitWalk_le (nodes := nodes) (id := id) (total + 1) i (fun x => if x = i then id else ids x)
        (by intro x; split
            · exact Nat.le_refl _
            · exact Nat.le_of_lt (hlt x))
      have hw := implicitWalk_ends (nodes := nodes) hid (total + 1) i (fun x => if x = i then id else ids x)
        (by
          intro x hx hxi
          split at hx
          · rename_i hxj; rw [if_pos hxj] at hxi; exact absurd rfl hxi
          · exact he x hx)
      generalize implicitWalk nodes id (total + 1) i (fun x => if x = i then id else ids x) = w at h hl hw
      obtain ⟨b, ids'⟩ := w
      cases b with
      | true => simp at h
      | false =>
        simp only at h hl hw
        have hw := hw trivial
        have he' : ∀ x, ids' x ≠ 0 → Ends nodes x := by
          intro y hy
          rcases hw.2 y hy with h3 | h3
          · exact h3
          · split at h3
            · rename_i hyi; rw [hyi]; exact hw.1
            · have := hlt y; omega
        by_cases hx : x = i
        · rw [hx]; exact hw.1
        · exact ih _ _ _ (by omega) (fun y => by have := hl y; omega) he' h x (by omega) (by omega)

theorem containsImplicitLoop_ends {nodes : Nat → Node} {total : Nat} (h : containsImplicitLoop nodes total = false) :
    ∀ x, x < total → Ends nodes x :=
  fun x hx => implicitLoop_ends total 0 1 (fun _ => 0) (by omega) (by omega) (fun _ h => absurd rfl h) h x
    (Nat.zero_le x) (by omega)

/-- Nothing but callbacks and what depends on them changes in nodes. -/
def SameShape (x y : Nat → Node) : Prop := ∀ i, (x i).implicit = (y i).implicit ∧ (x i).next = (y i).next

theorem DSt.write_frame {env : Env} {d d' : DSt} {x : Bytes} (h : d.write env x = some d') :
    d'.nodes = d.nodes ∧ d'.node = d.node ∧ d'.iters = d.iters ∧ d'.trans = d.trans := by
  unfold DSt.write at h
  split at h
  · cases h; exact ⟨rfl, rfl, rfl, rfl⟩
  · cases h

theorem DSt.read_frame {d d' : DSt} {i : Option Nat} {n : Nat} {x : Bytes} (h : d.read i n = some (x, d')) :
    d'.nodes = d.nodes ∧ d'.node = d.node ∧ d'.iters = d.iters ∧ d'.trans = d.trans := by
  unfold DSt.read at h
  repeat' split at h
  all_goals first
    | (cases h; done)
    | (cases h; exact ⟨rfl, rfl, rfl, rfl⟩)

theorem messageStart_frame {env : Env} {d d' : DSt} (h : messageStart env d = some d') :
    d'.nodes = d.nodes ∧ d'.node = d.node ∧ d'.iters = d.iters ∧ d'.trans = d.trans := by
  unfold messageStart at h
  repeat' split at h
  all_goals first
    | (cases h; done)
    | (cases h; exact ⟨rfl, rfl, rfl, rfl⟩)

theorem callback_frame {env : Env} {d d' : DSt} (h : callback env d = some d') :
    d'.nodes = d.nodes ∧ d'.node = d.node ∧ d'.iters = d.iters ∧ d'.trans = d.trans := by
  unfold callback at h
  simp only at h
  split at h
  · cases h
  · cases h; exact ⟨rfl, rfl, rfl, rfl⟩
  · split at h
    · cases h
    · cases h; exact ⟨rfl, rfl, rfl, rfl⟩
  · cases h; exact ⟨rfl, rfl, rfl, rfl⟩
  · split at h
    · cases h
    · split at h
      · cases h
      · exact (by have hf := DSt.write_frame h; exact hf)
  · exact (by have hf := DSt.write_frame h; exact hf)
  · split at h
    · cases h
    · rename_i hr
      have h1 := DSt.read_frame hr
      have h2 := DSt.write_frame h
      exact ⟨h2.1.trans h1.1, h2.2.1.trans h1.2.1, h2.2.2.1.trans h1.2.2.1, h2.2.2.2.trans h1.2.2.2⟩
  · split at h
    · cases h
    · rename_i hr
      have h1 := DSt.read_frame hr
      have h2 := DSt.write_frame h
      exact ⟨h2.1.trans h1.1, h2.2.1.trans h1.2.1, h2.2.2.1.trans h1.2.2.1, h2.2.2.2.trans h1.2.2.2⟩
  · exact (by have hf := DSt.write_frame h; exact hf)
  · split at h
    · cases h
    · split at h
      · cases h
      · split at h
        · cases h
        · rename_i hr
          have h1 := DSt.read_frame hr
          split at h
          · cases h
          · rename_i hw
            have h2 := DSt.write_frame hw
            have h3 := DSt.write_frame h
            exact ⟨h3.1.trans (h2.1.trans h1.1), h3.2.1.trans (h2.2.1.trans h1.2.1),
              h3.2.2.1.trans (h2.2.2.1.trans h1.2.2.1), h3.2.2.2.trans (h2.2.2.2.trans h1.2.2.2)⟩
  · split at h
    · cases h
    · exact (by have hf := DSt.write_frame h; exact hf)
  · exact (by have hf := DSt.write_frame h; exact hf)
  · split at h
    · cases h
    · split at h
      · cases h
      · rename_i hr
        have h1 := DSt.read_frame hr
        split at h
        · cases h
        · rename_i hr2
          have h2 := DSt.read_frame hr2
          split at h
          · cases h
          · rename_i hw
            have h3 := DSt.write_frame hw
            have h4 := messageStart_frame h
            exact ⟨h4.1.trans (h3.1.trans (h2.1.trans h1.1)), h4.2.1.trans (h3.2.1.trans (h2.2.1.trans h1.2.1)),
              h4.2.2.1.trans (h3.2.2.1.trans (h2.2.2.1.trans h1.2.2.1)),
              h4.2.2.2.trans (h3.2.2.2.trans (h2.2.2.2.trans h1.2.2.2))⟩
  · exact messageStart_frame h
  · cases h; exact ⟨rfl, rfl, rfl, rfl⟩
  · cases h
  · cases h

theorem setCallbackType_frame {env : Env} {d d' : DSt} (h : setCallbackType env d = some d') :
    SameShape d'.nodes d.nodes ∧ d'.node = d.node ∧ d'.iters = d.iters ∧ d'.trans = d.trans := by
  unfold setCallbackType at h
  simp only at h
  repeat' split at h
  all_goals first
    | (cases h; done)
    | (cases h
       refine ⟨?_, rfl, rfl, rfl⟩
       intro i
       simp only
       by_cases hi : i = d.node
       · simp [hi]
       · simp [hi])

theorem handleNode_frame {env : Env} {d d' : DSt} (h : handleNode env d = some d') :
    SameShape d'.nodes d.nodes ∧ d'.node = d.node ∧ d'.iters = d.iters ∧ d'.trans = d.trans := by
  unfold handleNode at h
  split at h
  · split at h
    · cases h
    · rename_i h1
      have e1 := setCallbackType_frame h1
      have e2 := callback_frame h
      refine ⟨?_, e2.2.1.trans e1.2.1, e2.2.2.1.trans e1.2.2.1, e2.2.2.2.trans e1.2.2.2⟩
      rw [e2.1]; exact e1.1
  · have e2 := callback_frame h
    exact ⟨by rw [e2.1]; exact fun _ => ⟨rfl, rfl⟩, e2.2⟩

/-- Number of explicit transitions left. -/
def budget (nodes : Nat → Node) (d : DSt) : Nat := (pending nodes d).length

/-- The loop of the decoder ends. -/
theorem decodeLoop_total {env : Env} {nodes : Nat → Node} (hends : ∀ x, Ends nodes x) :
    ∀ (n : Nat) (d : DSt), (pending nodes d).length = n → SameShape d.nodes nodes →
      ((nodes d.node).implicit = true → 1 ≤ d.iters) → ∃ r, decodeLoop env d = some r := by
  intro n
  induction n using Nat.strongRecOn with
  | ind n ih =>
    intro d
    have key : ∀ k, Ends nodes k → ∀ d : DSt, d.node = k → (pending nodes d).length = n → SameShape d.nodes nodes →
        ((nodes d.node).implicit = true → 1 ≤ d.iters) → ∃ r, decodeLoop env d = some r := by
      intro k hk
      -- one step, from a node which is not implicit
      have hstop : ∀ d : DSt, (nodes d.node).implicit = false → (pending nodes d).length = n →
          SameShape d.nodes nodes → ∃ r, decodeLoop env d = some r := by
        intro d hi hn hs
        rw [decodeLoop]
        cases hh : handleNode env d with
        | none => exact ⟨none, rfl⟩
        | some d1 =>
          simp only
          obtain ⟨f1, f2, f3, f4⟩ := handleNode_frame hh
          have hs1 : SameShape d1.nodes nodes := fun i => ⟨(f1 i).1.trans (hs i).1, (f1 i).2.trans (hs i).2⟩
          cases ht : transitionNode d1 with
          | none => exact ⟨_, rfl⟩
          | some d2 =>
            simp only
            unfold transitionNode at ht
            simp only at ht
            unfold pending at hn
            simp only [hi, Bool.false_eq_true, if_false, Nat.sub_zero] at hn
            split at ht
            · rename_i h0
              split at ht
              · cases ht
              · rename_i b t htr
                cases ht
                refine ih _ ?_ _ rfl hs1 ?_
                · unfold pending
                  simp only [(hs1 _).1, Nat.add_sub_cancel]
                  rw [← hn, ← f3, h0, ← f4, htr]
                  simp [expand, expandByte]
                · simp only [(hs1 _).1]; intro h; rw [if_pos h]; omega
            · rename_i h0
              cases ht
              refine ih _ ?_ _ rfl hs1 ?_
              · unfold pending
                simp only [(hs1 _).1]
                rw [← hn, f3, f4]
                rw [f3] at h0
                simp only [List.length_append, List.length_replicate]
                split <;> omega
              · simp only [(hs1 _).1]; intro h; rw [if_pos h]; omega
      induction hk with
      | stop hi => intro d hd hn hs _; subst hd; exact hstop d hi hn hs
      | @next k hk ihk =>
        intro d hd hn hs hit
        by_cases hi : (nodes d.node).implicit = false
        · exact hstop d hi hn hs
        have hi : (nodes d.node).implicit = true := by simpa using hi
        have hit := hit hi
        rw [decodeLoop]
        cases hh : handleNode env d with
        | none => exact ⟨none, rfl⟩
        | some d1 =>
          simp only
          obtain ⟨f1, f2, f3, f4⟩ := handleNode_frame hh
          have hs1 : SameShape d1.nodes nodes := fun i => ⟨(f1 i).1.trans (hs i).1, (f1 i).2.trans (hs i).2⟩
          cases ht : transitionNode d1 with
          | none => exact ⟨_, rfl⟩
          | some d2 =>
            simp only
            unfold transitionNode at ht
            simp only at ht
            rw [if_neg (by omega)] at ht
            cases ht
            refine ihk _ ?_ ?_ hs1 ?_
            · simp only; rw [(hs1 _).2, f2, hd]
            · rw [← hn]
              unfold pending
              simp only [(hs1 _).1, f3, f4, hi, if_true]
              simp only [List.length_append, List.length_replicate]
              split <;> omega
            · simp only [(hs1 _).1]; intro h; rw [if_pos h]; omega
    exact key d.node (hends _) d rfl

end Riegeli.Tr

import Verif.ChainHeap
/-!
# Chain: reference counts, and what every block operation does to every other block
-/
namespace Riegeli.Chn

/-- The block which a live `Chain::Block` object refers to. -/
def Raw.own (r : Raw) : List Nat :=
  if r.refs = 0 then [] else match r.body with
    | .sub o _ _ => [o]
    | _ => []

/-- All references from blocks to blocks. -/
def owners (H : Heap) : List Nat := H.flatMap Raw.own

/-- A block which can exist. -/
def BodyOk (H : Heap) (id : Nat) : Body → Prop
  | .internal mem beg len => beg + len ≤ mem.length ∧ mem.length ≤ maxCap
  | .external d => d.length ≤ maxCap
  | .sub o off len => o < id ∧ ∃ r, H[o]? = some r ∧ off + len ≤ r.body.size

/-- The heap is consistent, `hs` being all references to blocks from outside of the
heap: the reference counts are exact. -/
structure Good (H : Heap) (hs : List Nat) : Prop where
  lt : ∀ id, id ∈ hs → id < H.length
  refs : ∀ id r, H[id]? = some r → r.refs = hs.count id + (owners H).count id
  body : ∀ id r, H[id]? = some r → r.refs ≠ 0 → BodyOk H id r.body

theorem Good.congr {H : Heap} {hs hs' : List Nat} (g : Good H hs)
    (h : ∀ id, hs'.count id = hs.count id) : Good H hs' := by
  refine ⟨fun id hm => ?_, fun id r hr => ?_, g.body⟩
  · apply g.lt
    have h1 : 0 < hs'.count id := List.count_pos_iff.2 hm
    rw [h] at h1
    exact List.count_pos_iff.1 h1
  · rw [h]; exact g.refs id r hr

theorem Good.live {H : Heap} {hs : List Nat} (g : Good H hs) {id : Nat} (hm : id ∈ hs) :
    ∃ r, H[id]? = some r ∧ r.refs ≠ 0 := by
  have hl := g.lt id hm
  refine ⟨H[id], List.getElem?_eq_getElem hl, ?_⟩
  have := g.refs id H[id] (List.getElem?_eq_getElem hl)
  have h1 : 0 < hs.count id := List.count_pos_iff.2 hm
  omega

theorem own_mem {H : Heap} {id o : Nat} {r : Raw} (h : H[id]? = some r) (ho : o ∈ r.own) :
    o ∈ owners H := by
  unfold owners
  rw [List.mem_flatMap]
  exact ⟨r, List.mem_of_getElem? h, ho⟩

theorem Good.owner_live {H : Heap} {hs : List Nat} (g : Good H hs) {id o off len : Nat} {r : Raw}
    (h : H[id]? = some r) (h0 : r.refs ≠ 0) (hb : r.body = .sub o off len) :
    ∃ s, H[o]? = some s ∧ s.refs ≠ 0 ∧ o < id ∧ off + len ≤ s.body.size := by
  have hk := g.body id r h h0
  rw [hb] at hk
  obtain ⟨hlt, s, hs1, hs2⟩ := hk
  refine ⟨s, hs1, ?_, hlt, hs2⟩
  have hm : o ∈ owners H := own_mem h (by simp [Raw.own, h0, hb])
  have h1 : 0 < (owners H).count o := List.count_pos_iff.2 hm
  have := g.refs o s hs1
  omega

/-! ### Reading -/

theorem view_eq (H : Heap) (id : Nat) : view H id =
    match H[id]? with
    | none => none
    | some r =>
      if r.refs = 0 then none else
      match r.body with
      | .internal mem beg len => some ⟨slice mem beg len, some mem.length⟩
      | .external d => some ⟨d, none⟩
      | .sub o off len =>
        if o < id then (view H o).map (fun v => ⟨slice v.data off len, none⟩) else none := by
  rw [view.eq_def]
  cases H[id]? with
  | none => rfl
  | some r =>
    simp only
    split
    · rfl
    · cases r.body <;> rfl

theorem get_of {H : Heap} {id : Nat} {r : Raw} (h : H[id]? = some r) (h0 : r.refs ≠ 0) :
    get H id = some r := by
  unfold get; rw [h]; simp [h0]

theorem view_live {H : Heap} {hs : List Nat} (g : Good H hs) :
    ∀ (id : Nat) (r : Raw), H[id]? = some r → r.refs ≠ 0 →
      ∃ v, view H id = some v ∧ v.data.length = r.body.size ∧
        (∀ mem beg len, r.body = .internal mem beg len →
          v = ⟨slice mem beg len, some mem.length⟩) := by
  intro id
  induction id using Nat.strongRecOn with
  | ind id ih =>
    intro r h h0
    rw [view_eq, h]
    simp only [h0, if_false]
    have hk := g.body id r h h0
    cases hb : r.body with
    | internal mem beg len =>
      rw [hb] at hk
      obtain ⟨hk1, hk2⟩ := hk
      refine ⟨_, rfl, ?_, ?_⟩
      · simp [slice, Body.size]; omega
      · intro mem' beg' len' he; cases he; rfl
    | external d =>
      refine ⟨_, rfl, rfl, ?_⟩
      intro _ _ _ he; cases he
    | sub o off len =>
      obtain ⟨s, hs1, hs2, hs3, hs4⟩ := g.owner_live h h0 hb
      obtain ⟨v, hv1, hv2, _⟩ := ih o hs3 s hs1 hs2
      simp only [hs3, if_true, hv1, Option.map_some]
      refine ⟨_, rfl, ?_, ?_⟩
      · simp only [slice, List.length_take, List.length_drop, hv2]
        show min len _ = len
        omega
      · intro _ _ _ he; cases he

theorem Good.view {H : Heap} {hs : List Nat} (g : Good H hs) {id : Nat} (hm : id ∈ hs) :
    ∃ v, view H id = some v := by
  obtain ⟨r, h1, h2⟩ := g.live hm
  obtain ⟨v, hv, _⟩ := view_live g id r h1 h2
  exact ⟨v, hv⟩

theorem slice_length_le (mem : Bytes) (a b : Nat) : (slice mem a b).length ≤ mem.length := by
  simp [slice]; omega

theorem Good.view_size {H : Heap} {hs : List Nat} (g : Good H hs) {id : Nat} {v : View}
    (hm : id ∈ hs) (hv : Chn.view H id = some v) :
    ∃ r, H[id]? = some r ∧ r.refs ≠ 0 ∧ v.data.length = r.body.size := by
  obtain ⟨r, h1, h2⟩ := g.live hm
  obtain ⟨v', hv1, hv2, _⟩ := view_live g id r h1 h2
  rw [hv] at hv1; cases hv1
  exact ⟨r, h1, h2, hv2⟩

/-- Blocks which are the same in two heaps look the same. -/
theorem view_congr {H H' : Heap} (S : Nat → Prop)
    (h : ∀ j, S j → ∃ r r', H[j]? = some r ∧ H'[j]? = some r' ∧ r.refs ≠ 0 ∧ r'.refs ≠ 0 ∧
      r'.body = r.body ∧ (∀ o off len, r.body = .sub o off len → o < j → S o)) :
    ∀ j, S j → view H' j = view H j := by
  intro j
  induction j using Nat.strongRecOn with
  | ind j ih =>
    intro hS
    obtain ⟨r, r', h1, h2, h3, h4, h5, h6⟩ := h j hS
    rw [view_eq H', view_eq H, h1, h2]
    simp only [h3, h4, if_false, h5]
    cases hb : r.body with
    | internal mem beg len => rfl
    | external d => rfl
    | sub o off len =>
      simp only
      by_cases ho : o < j
      · simp only [ho, if_true]
        rw [ih o ho (h6 o off len hb ho)]
      · simp only [ho, if_false]

/-! ### References from blocks to blocks, when a block changes -/

theorem count_flatMap_set {f : Raw → List Nat} (H : Heap) (i : Nat) (r r' : Raw) (x : Nat)
    (h : H[i]? = some r) :
    ((H.set i r').flatMap f).count x + (f r).count x = (H.flatMap f).count x + (f r').count x := by
  induction H generalizing i with
  | nil => simp at h
  | cons a t ih =>
    cases i with
    | zero =>
      simp at h; subst h
      simp [List.count_append]; omega
    | succ i =>
      simp at h
      have := ih i h
      simp [List.count_append]; omega

theorem owners_set {H : Heap} {i : Nat} {r r' : Raw} (x : Nat) (h : H[i]? = some r) :
    (owners (H.set i r')).count x + r.own.count x = (owners H).count x + r'.own.count x :=
  count_flatMap_set H i r r' x h

theorem owners_append (H : Heap) (r : Raw) : owners (H ++ [r]) = owners H ++ r.own := by
  simp [owners]

theorem set_get {H : Heap} {i : Nat} {r r' : Raw} (h : H[i]? = some r) :
    (H.set i r')[i]? = some r' := by
  have : i < H.length := by
    rw [List.getElem?_eq_some_iff] at h; exact h.1
  simp [this]

theorem set_ne {H : Heap} {i j : Nat} {r' : Raw} (h : i ≠ j) : (H.set i r')[j]? = H[j]? := by
  simp [h]

theorem bodyOk_set {H : Heap} {i id : Nat} {r r' : Raw} {b : Body} (h : H[i]? = some r)
    (hs : r'.body.size = r.body.size ∨ ∀ off len, b ≠ .sub i off len)
    (hb : BodyOk H id b) : BodyOk (H.set i r') id b := by
  cases b with
  | internal mem beg len => exact hb
  | external d => exact hb
  | sub o off len =>
    obtain ⟨h1, s, h2, h3⟩ := hb
    by_cases hio : i = o
    · subst hio
      refine ⟨h1, r', set_get h, ?_⟩
      rcases hs with hs | hs
      · rw [h] at h2; cases h2; omega
      · exact absurd rfl (hs off len)
    · exact ⟨h1, s, by rw [set_ne hio]; exact h2, h3⟩

theorem bodyOk_append {H : Heap} {r : Raw} {id : Nat} {b : Body} (hb : BodyOk H id b) :
    BodyOk (H ++ [r]) id b := by
  cases b with
  | internal mem beg len => exact hb
  | external d => exact hb
  | sub o off len =>
    obtain ⟨h1, s, h2, h3⟩ := hb
    refine ⟨h1, s, ?_, h3⟩
    have : o < H.length := by
      rw [List.getElem?_eq_some_iff] at h2; exact h2.1
    rw [List.getElem?_append_left this]; exact h2

/-! ### Frames -/

/-- The blocks of `E` look the same. -/
def Same (H H' : Heap) (E : List Nat) : Prop := ∀ j, j ∈ E → view H' j = view H j

theorem Same.refl (H : Heap) (E : List Nat) : Same H H E := fun _ _ => rfl

theorem Same.trans {H H' H'' : Heap} {E E' : List Nat} (h : Same H H' E) (h' : Same H' H'' E')
    (hs : ∀ j, j ∈ E → j ∈ E') : Same H H'' E :=
  fun j hj => (h' j (hs j hj)).trans (h j hj)

theorem Same.mono {H H' : Heap} {E E' : List Nat} (h : Same H H' E')
    (hs : ∀ j, j ∈ E → j ∈ E') : Same H H' E := fun j hj => h j (hs j hj)

/-! ### New blocks -/

theorem append_get_lt {H : Heap} {r : Raw} {j : Nat} (h : j < H.length) : (H ++ [r])[j]? = H[j]? :=
  List.getElem?_append_left h

theorem append_get_last (H : Heap) (r : Raw) : (H ++ [r])[H.length]? = some r := by simp

theorem append_get_cases {H : Heap} {r s : Raw} {j : Nat} (h : (H ++ [r])[j]? = some s) :
    (j < H.length ∧ H[j]? = some s) ∨ (j = H.length ∧ s = r) := by
  by_cases hj : j < H.length
  · rw [append_get_lt hj] at h; exact .inl ⟨hj, h⟩
  · right
    rw [List.getElem?_append_right (by omega)] at h
    have : j - H.length = 0 := by
      rcases Nat.eq_zero_or_pos (j - H.length) with h0 | h0
      · exact h0
      · rw [List.getElem?_eq_none (by simp; omega)] at h; cases h
    rw [this] at h; simp at h
    exact ⟨by omega, h.symm⟩

theorem same_append {H : Heap} {hs : List Nat} (g : Good H hs) (r : Raw) {E : List Nat}
    (hE : ∀ j, j ∈ E → j ∈ hs) : Same H (H ++ [r]) E := by
  refine fun j hj => view_congr (fun j => ∃ s, H[j]? = some s ∧ s.refs ≠ 0) ?_ j (g.live (hE j hj))
  intro j ⟨s, h1, h2⟩
  have : j < H.length := by
    rw [List.getElem?_eq_some_iff] at h1; exact h1.1
  refine ⟨s, s, h1, by rw [append_get_lt this]; exact h1, h2, h2, rfl, ?_⟩
  intro o off len hb _
  obtain ⟨s', h3, h4, _⟩ := g.owner_live h1 h2 hb
  exact ⟨s', h3, h4⟩

theorem good_append {H : Heap} {hs : List Nat} (g : Good H hs) {b : Body}
    (hb : BodyOk H H.length b) (hs' : List Nat)
    (hc : ∀ x, x ≠ H.length → hs'.count x + (Raw.own ⟨1, b⟩).count x = hs.count x)
    (h1 : hs'.count H.length = 1) : Good (H ++ [⟨1, b⟩]) hs' := by
  have hown : (Raw.own ⟨1, b⟩).count H.length = 0 := by
    cases b with
    | sub o off len =>
      have := hb.1
      simp [Raw.own, List.count_cons]; omega
    | _ => simp [Raw.own]
  have hown2 : (owners H).count H.length = 0 := by
    rw [List.count_eq_zero]
    intro hm
    unfold owners at hm
    rw [List.mem_flatMap] at hm
    obtain ⟨s, hs1, hs2⟩ := hm
    obtain ⟨i, hi⟩ := List.mem_iff_getElem?.1 hs1
    unfold Raw.own at hs2
    by_cases h0 : s.refs = 0
    · simp [h0] at hs2
    · simp only [h0, if_false] at hs2
      cases hbb : s.body with
      | sub o off len =>
        rw [hbb] at hs2; simp at hs2; subst hs2
        have := (g.owner_live hi h0 hbb).choose_spec.1
        rw [List.getElem?_eq_some_iff] at this
        exact absurd this.1 (by omega)
      | _ => rw [hbb] at hs2; simp at hs2
  have hlt : ∀ x, H.length < x → hs.count x = 0 := by
    intro x hx
    rw [List.count_eq_zero]
    intro hm; have := g.lt x hm; omega
  refine ⟨?_, ?_, ?_⟩
  · intro id hm
    simp only [List.length_append, List.length_singleton]
    have hp : 0 < hs'.count id := List.count_pos_iff.2 hm
    rcases Nat.lt_trichotomy id H.length with h | h | h
    · omega
    · omega
    · have := hc id (by omega); have := hlt id h; omega
  · intro id r h
    rw [owners_append, List.count_append]
    rcases append_get_cases h with ⟨hl, h⟩ | ⟨rfl, rfl⟩
    · rw [g.refs id r h]
      have := hc id (by omega); omega
    · show (1 : Nat) = _
      omega
  · intro id r h h0
    rcases append_get_cases h with ⟨hl, h⟩ | ⟨rfl, rfl⟩
    · exact bodyOk_append (g.body id r h h0)
    · exact bodyOk_append hb

/-- A new block is a new, only, reference to an empty internal block. -/
theorem newInternal_spec {env : Env} (he : env.Ok) {H : Heap} {hs : List Nat} (g : Good H hs)
    {n : Nat} (h0 : n ≠ 0) (hn : n ≤ maxCap) :
    ∃ H' b mem, newInternal env H n = some (H', b) ∧ Good H' (b :: hs) ∧ Same H H' hs ∧
      H'[b]? = some ⟨1, .internal mem 0 0⟩ ∧ n ≤ mem.length ∧
      headerSize + mem.length ≤ 2 * n + minBlock ∧ b ∉ hs := by
  refine ⟨_, _, env.mem H.length n, ?_, ?_, same_append g _ (fun _ h => h), append_get_last _ _,
    he.enough _ _, he.tight _ _, ?_⟩
  · unfold newInternal
    rw [if_neg h0, if_neg (by have := he.fits H.length n hn; omega)]
  · refine good_append (b := .internal (env.mem H.length n) 0 0) g ⟨by simp, he.fits _ _ hn⟩ _ ?_ ?_
    · intro x hx
      have : (H.length == x) = false := by simp; omega
      simp [Raw.own, List.count_cons, this]
    · have : hs.count H.length = 0 := by
        rw [List.count_eq_zero]; intro hm; have := g.lt _ hm; omega
      simp [this]
  · intro hm; have := g.lt _ hm; omega

theorem newExternal_spec {H : Heap} {hs : List Nat} (g : Good H hs) {d : Bytes}
    (hd : d.length ≤ maxCap) :
    Good (newExternal H d).1 ((newExternal H d).2 :: hs) ∧ Same H (newExternal H d).1 hs ∧
      view (newExternal H d).1 (newExternal H d).2 = some ⟨d, none⟩ := by
  refine ⟨?_, same_append g _ (fun _ h => h), ?_⟩
  · refine good_append (b := .external d) g hd _ ?_ ?_
    · intro x hx
      have : (H.length == x) = false := by simp; omega
      simp [Raw.own, newExternal, List.count_cons, this]
    · have : hs.count H.length = 0 := by
        rw [List.count_eq_zero]; intro hm; have := g.lt _ hm; omega
      simp [newExternal, this]
  · unfold newExternal
    rw [view_eq, append_get_last]; simp

theorem newSub_spec {H : Heap} {hs : List Nat} {o off len : Nat} (g : Good H (o :: hs)) {v : View}
    (hv : view H o = some v) (hl : off + len ≤ v.data.length) :
    ∃ H' b, newSub H o off len = some (H', b) ∧ Good H' (b :: hs) ∧ Same H H' hs ∧
      view H' b = some ⟨slice v.data off len, none⟩ := by
  obtain ⟨r, h1, h2, h3⟩ := g.view_size (by simp) hv
  have holt : o < H.length := g.lt o (by simp)
  refine ⟨H ++ [⟨1, .sub o off len⟩], H.length, ?_, ?_, ?_, ?_⟩
  · unfold newSub
    rw [get_of h1 h2]
    simp only
    rw [if_pos (by omega)]
  · refine good_append (b := .sub o off len) g ⟨holt, r, h1, by omega⟩ _ ?_ ?_
    · intro x hx
      have : (H.length == x) = false := by simp; omega
      simp [Raw.own, List.count_cons, this]
    · have : hs.count H.length = 0 := by
        rw [List.count_eq_zero]; intro hm; have := g.lt H.length (by simp [hm]); omega
      simp [this]
  · exact same_append g _ (fun _ h => by simp [h])
  · have hs1 := same_append g (⟨1, .sub o off len⟩ : Raw) (E := [o]) (by simp) o (by simp)
    rw [view_eq, append_get_last]
    simp only [Nat.one_ne_zero, if_false, holt, if_true, hs1, hv, Option.map_some]

/-! ### Taking and dropping references -/

theorem own_refs_pos {r : Raw} {n : Nat} (h : r.refs ≠ 0) (hn : n ≠ 0) :
    Raw.own { r with refs := n } = r.own := by
  simp [Raw.own, h, hn]

theorem ref_live {H : Heap} {hs : List Nat} (g : Good H hs) {id : Nat} {r : Raw}
    (h1 : H[id]? = some r) (h2 : r.refs ≠ 0) :
    ∃ H', ref H id = some H' ∧ Good H' (id :: hs) ∧
      ∀ j, (∃ s, H[j]? = some s ∧ s.refs ≠ 0) → view H' j = view H j := by
  have hown : ∀ x, (owners (H.set id { r with refs := r.refs + 1 })).count x = (owners H).count x := by
    intro x
    have := owners_set (r' := { r with refs := r.refs + 1 }) x h1
    have h9 : Raw.own { r with refs := r.refs + 1 } = r.own := own_refs_pos h2 (by omega)
    rw [h9] at this
    omega
  refine ⟨_, by unfold ref; rw [get_of h1 h2], ⟨?_, ?_, ?_⟩, ?_⟩
  · intro j hj
    rw [List.length_set]
    simp at hj
    rcases hj with rfl | hj
    · rw [List.getElem?_eq_some_iff] at h1; exact h1.1
    · exact g.lt _ hj
  · intro j s hj
    rw [hown]
    by_cases hij : id = j
    · subst hij
      rw [set_get h1] at hj; cases hj
      simp only
      rw [g.refs id r h1]; simp; omega
    · rw [set_ne hij] at hj
      rw [g.refs j s hj]
      have : (id == j) = false := by simp; exact hij
      simp [List.count_cons, this]
  · intro j s hj h0
    by_cases hij : id = j
    · subst hij
      rw [set_get h1] at hj; cases hj
      exact bodyOk_set h1 (.inl rfl) (g.body id r h1 h2)
    · rw [set_ne hij] at hj
      exact bodyOk_set h1 (.inl rfl) (g.body j s hj h0)
  · intro j hj
    refine view_congr (fun j => ∃ s, H[j]? = some s ∧ s.refs ≠ 0) ?_ j hj
    intro j ⟨s, h3, h4⟩
    have hsub : ∀ o off len, s.body = .sub o off len → o < j → ∃ s, H[o]? = some s ∧ s.refs ≠ 0 := by
      intro o off len hb _
      obtain ⟨s', h5, h6, _⟩ := g.owner_live h3 h4 hb
      exact ⟨s', h5, h6⟩
    by_cases hij : id = j
    · subst hij
      rw [h1] at h3; cases h3
      exact ⟨r, _, h1, set_get h1, h2, by simp, rfl, hsub⟩
    · exact ⟨s, s, h3, by rw [set_ne hij]; exact h3, h4, h4, rfl, hsub⟩

theorem ref_spec {H : Heap} {hs : List Nat} (g : Good H hs) {id : Nat} (hm : id ∈ hs) :
    ∃ H', ref H id = some H' ∧ Good H' (id :: hs) ∧ Same H H' hs := by
  obtain ⟨r, h1, h2⟩ := g.live hm
  obtain ⟨H', k1, k2, k3⟩ := ref_live g h1 h2
  exact ⟨H', k1, k2, fun j hj => k3 j (g.live hj)⟩

/-- Dropping a reference that is not the last one. -/
theorem unref_dec {H : Heap} {hs : List Nat} {id : Nat} {r : Raw} (g : Good H (id :: hs))
    (h1 : H[id]? = some r) (h2 : 1 < r.refs) :
    Good (H.set id { r with refs := r.refs - 1 }) hs ∧
      Same H (H.set id { r with refs := r.refs - 1 }) hs := by
  have h0 : r.refs ≠ 0 := by omega
  have hown : ∀ x, (owners (H.set id { r with refs := r.refs - 1 })).count x = (owners H).count x := by
    intro x
    have := owners_set (r' := { r with refs := r.refs - 1 }) x h1
    have h9 : Raw.own { r with refs := r.refs - 1 } = r.own := own_refs_pos h0 (by omega)
    rw [h9] at this
    omega
  refine ⟨⟨?_, ?_, ?_⟩, ?_⟩
  · intro j hj
    rw [List.length_set]
    exact g.lt _ (by simp [hj])
  · intro j s hj
    rw [hown]
    by_cases hij : id = j
    · subst hij
      rw [set_get h1] at hj; cases hj
      simp only
      have := g.refs id r h1
      simp at this; omega
    · rw [set_ne hij] at hj
      have := g.refs j s hj
      have hne : (id == j) = false := by simp; exact hij
      simpa [List.count_cons, hne] using this
  · intro j s hj hs0
    by_cases hij : id = j
    · subst hij
      rw [set_get h1] at hj; cases hj
      exact bodyOk_set h1 (.inl rfl) (g.body id r h1 h0)
    · rw [set_ne hij] at hj
      exact bodyOk_set h1 (.inl rfl) (g.body j s hj hs0)
  · intro j hj
    refine view_congr (fun j => ∃ s, H[j]? = some s ∧ s.refs ≠ 0) ?_ j (g.live (by simp [hj]))
    intro j ⟨s, h3, h4⟩
    have hsub : ∀ o off len, s.body = .sub o off len → o < j → ∃ s, H[o]? = some s ∧ s.refs ≠ 0 := by
      intro o off len hb _
      obtain ⟨s', h5, h6, _⟩ := g.owner_live h3 h4 hb
      exact ⟨s', h5, h6⟩
    by_cases hij : id = j
    · subst hij
      rw [h1] at h3; cases h3
      exact ⟨r, _, h1, set_get h1, h0, by simp; omega, rfl, hsub⟩
    · exact ⟨s, s, h3, by rw [set_ne hij]; exact h3, h4, h4, rfl, hsub⟩

/-- The last reference: no other block refers to it. -/
theorem last_ref {H : Heap} {hs : List Nat} {id : Nat} {r : Raw} (g : Good H (id :: hs))
    (h1 : H[id]? = some r) (h2 : r.refs = 1) : hs.count id = 0 ∧ (owners H).count id = 0 := by
  have := g.refs id r h1
  simp at this; omega

theorem not_sub_of_count {H : Heap} {id j off len : Nat} {s : Raw} (h : (owners H).count id = 0)
    (hj : H[j]? = some s) (h0 : s.refs ≠ 0) : s.body ≠ .sub id off len := by
  intro hb
  have : id ∈ owners H := own_mem hj (by simp [Raw.own, h0, hb])
  exact absurd (List.count_pos_iff.2 this) (by omega)

/-- Deleting a block, which hands over the reference it held. -/
theorem unref_del {H : Heap} {hs : List Nat} {id : Nat} {r : Raw} (g : Good H (id :: hs))
    (h1 : H[id]? = some r) (h2 : r.refs = 1) :
    Good (H.set id { r with refs := 0 }) (r.own ++ hs) ∧
      Same H (H.set id { r with refs := 0 }) hs := by
  have h0 : r.refs ≠ 0 := by omega
  obtain ⟨hc1, hc2⟩ := last_ref g h1 h2
  have hnot : id ∉ r.own := by
    intro hm
    have := own_mem h1 hm
    exact absurd (List.count_pos_iff.2 this) (by omega)
  have hown : ∀ x, (owners (H.set id { r with refs := 0 })).count x + r.own.count x
      = (owners H).count x := by
    intro x
    have := owners_set (r' := { r with refs := 0 }) x h1
    have h3 : Raw.own { r with refs := 0 } = [] := by simp [Raw.own]
    rw [h3] at this
    simpa using this
  refine ⟨⟨?_, ?_, ?_⟩, ?_⟩
  · intro j hj
    rw [List.length_set]
    rw [List.mem_append] at hj
    rcases hj with hj | hj
    · unfold Raw.own at hj
      simp only [h0, if_false] at hj
      cases hbb : r.body with
      | sub o off len =>
        rw [hbb] at hj; simp at hj; subst hj
        have := (g.owner_live h1 h0 hbb).choose_spec.1
        rw [List.getElem?_eq_some_iff] at this
        exact this.1
      | _ => rw [hbb] at hj; simp at hj
    · exact g.lt _ (by simp [hj])
  · intro j s hj
    rw [List.count_append]
    have := hown j
    by_cases hij : id = j
    · subst hij
      rw [set_get h1] at hj; cases hj
      have : r.own.count id = 0 := List.count_eq_zero.2 hnot
      simp only
      omega
    · rw [set_ne hij] at hj
      have h5 := g.refs j s hj
      have hne : (id == j) = false := by simp; exact hij
      simp [List.count_cons, hne] at h5
      omega
  · intro j s hj hs0
    by_cases hij : id = j
    · subst hij
      rw [set_get h1] at hj; cases hj
      simp at hs0
    · rw [set_ne hij] at hj
      exact bodyOk_set h1 (.inl rfl) (g.body j s hj hs0)
  · intro j hj
    refine view_congr (fun j => j ≠ id ∧ ∃ s, H[j]? = some s ∧ s.refs ≠ 0) ?_ j ⟨?_, g.live (by simp [hj])⟩
    · intro j ⟨hne, s, h3, h4⟩
      refine ⟨s, s, h3, by rw [set_ne (Ne.symm hne)]; exact h3, h4, h4, rfl, ?_⟩
      intro o off len hb _
      obtain ⟨s', h5, h6, _⟩ := g.owner_live h3 h4 hb
      refine ⟨?_, s', h5, h6⟩
      rintro rfl
      exact not_sub_of_count hc2 h3 h4 hb
    · rintro rfl
      exact absurd (List.count_pos_iff.2 hj) (by omega)

theorem unref_eq (H : Heap) (id : Nat) : unref H id =
    match H[id]? with
    | none => none
    | some r =>
      if r.refs = 0 then none
      else if 1 < r.refs then some (H.set id { r with refs := r.refs - 1 })
      else
        match r.body with
        | .sub o _ _ => if o < id then unref (H.set id { r with refs := 0 }) o else none
        | _ => some (H.set id { r with refs := 0 }) := by
  rw [unref.eq_def]
  cases H[id]? with
  | none => rfl
  | some r =>
    simp only
    split
    · rfl
    · split
      · rfl
      · cases r.body <;> rfl

/-- Dropping a reference never disturbs what is still referred to. -/
theorem unref_spec {id : Nat} : ∀ {H : Heap} {hs : List Nat}, Good H (id :: hs) →
    ∃ H', unref H id = some H' ∧ Good H' hs ∧ Same H H' hs := by
  induction id using Nat.strongRecOn with
  | ind id ih =>
    intro H hs g
    obtain ⟨r, h1, h2⟩ := g.live (List.mem_cons_self ..)
    rw [unref_eq, h1]
    simp only [h2, if_false]
    by_cases h3 : 1 < r.refs
    · simp only [h3, if_true]
      obtain ⟨g', hs'⟩ := unref_dec g h1 h3
      exact ⟨_, rfl, g', hs'⟩
    · simp only [h3, if_false]
      obtain ⟨g', hs'⟩ := unref_del g h1 (by omega)
      cases hb : r.body with
      | sub o off len =>
        have hown : r.own = [o] := by simp [Raw.own, h2, hb]
        rw [hown] at g'
        have ho := (g.owner_live h1 h2 hb).choose_spec.2.2.1
        simp only [ho, if_true]
        obtain ⟨H'', hu, g'', hs''⟩ := ih o ho g'
        exact ⟨H'', by rw [hb] at hu; exact hu, g'', hs'.trans hs'' (fun _ h => h)⟩
      | internal mem beg len =>
        have hown : r.own = [] := by simp [Raw.own, h2, hb]
        rw [hown] at g'
        rw [hb] at g' hs'
        exact ⟨_, rfl, g', hs'⟩
      | external d =>
        have hown : r.own = [] := by simp [Raw.own, h2, hb]
        rw [hown] at g'
        rw [hb] at g' hs'
        exact ⟨_, rfl, g', hs'⟩

/-! ### Changing a block which has one reference -/

theorem setBody_of {H : Heap} {id : Nat} {r : Raw} {b : Body} (h : H[id]? = some r) :
    setBody H id b = H.set id { r with body := b } := by
  unfold setBody; rw [h]

/-- Changing the only reference to an internal block disturbs nothing else. -/
theorem setBody_spec {H : Heap} {hs : List Nat} {id : Nat} {mem mem' : Bytes}
    {beg len beg' len' : Nat} (g : Good H (id :: hs))
    (h1 : H[id]? = some ⟨1, .internal mem beg len⟩)
    (hm : mem'.length = mem.length) (hl : beg' + len' ≤ mem'.length) :
    Good (setBody H id (.internal mem' beg' len')) (id :: hs) ∧
      Same H (setBody H id (.internal mem' beg' len')) hs ∧
      (setBody H id (.internal mem' beg' len'))[id]? = some ⟨1, .internal mem' beg' len'⟩ ∧
      id ∉ hs := by
  obtain ⟨hc1, hc2⟩ := last_ref g h1 rfl
  have hnot : id ∉ hs := by
    intro h; exact absurd (List.count_pos_iff.2 h) (by omega)
  rw [setBody_of h1]
  have hown : ∀ x, (owners (H.set id ⟨1, .internal mem' beg' len'⟩)).count x = (owners H).count x := by
    intro x
    have := owners_set (r' := ⟨1, .internal mem' beg' len'⟩) x h1
    simpa [Raw.own] using this
  have hk := g.body id _ h1 (by simp)
  refine ⟨⟨?_, ?_, ?_⟩, ?_, set_get h1, hnot⟩
  · intro j hj
    rw [List.length_set]; exact g.lt _ hj
  · intro j s hj
    rw [hown]
    by_cases hij : id = j
    · subst hij
      rw [set_get h1] at hj; cases hj
      exact (g.refs id _ h1 :)
    · rw [set_ne hij] at hj
      exact g.refs j s hj
  · intro j s hj hs0
    by_cases hij : id = j
    · subst hij
      rw [set_get h1] at hj; cases hj
      exact ⟨hl, by rw [hm]; exact hk.2⟩
    · rw [set_ne hij] at hj
      exact bodyOk_set h1 (.inr fun off len => not_sub_of_count hc2 hj hs0) (g.body j s hj hs0)
  · intro j hj
    refine view_congr (fun j => j ≠ id ∧ ∃ s, H[j]? = some s ∧ s.refs ≠ 0) ?_ j
      ⟨by rintro rfl; exact hnot hj, g.live (by simp [hj])⟩
    intro j ⟨hne, s, h3, h4⟩
    refine ⟨s, s, h3, by rw [set_ne (Ne.symm hne)]; exact h3, h4, h4, rfl, ?_⟩
    intro o off len hb _
    obtain ⟨s', h5, h6, _⟩ := g.owner_live h3 h4 hb
    refine ⟨?_, s', h5, h6⟩
    rintro rfl
    exact not_sub_of_count hc2 h3 h4 hb

theorem view_internal {H : Heap} {id n : Nat} {mem : Bytes} {beg len : Nat}
    (h : H[id]? = some ⟨n + 1, .internal mem beg len⟩) :
    view H id = some ⟨slice mem beg len, some mem.length⟩ := by
  rw [view_eq, h]; simp

end Riegeli.Chn

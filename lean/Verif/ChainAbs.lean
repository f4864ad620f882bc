import Verif.ChainBlockProofs
import Verif.ChainModel
/-!
# Chain: the sequence of blocks

The array of block pointers and block offsets as a list of blocks, and the heap as an
independent content of each of them.
-/
namespace Riegeli.Chn

/-- All bytes of a list of blocks. -/
def flat (vs : List View) : Bytes := vs.flatMap (·.data)

@[simp] theorem flat_nil : flat [] = [] := rfl
@[simp] theorem flat_cons (v : View) (vs : List View) : flat (v :: vs) = v.data ++ flat vs := rfl
@[simp] theorem flat_append (vs ws : List View) : flat (vs ++ ws) = flat vs ++ flat ws := by
  simp [flat]

/-- The block offsets, given the first one. -/
def offsFrom (b : Nat) : List View → List Nat
  | [] => []
  | v :: vs => b % 2 ^ 64 :: offsFrom (b + v.data.length) vs

theorem offsFrom_append (b : Nat) (vs ws : List View) :
    offsFrom b (vs ++ ws) = offsFrom b vs ++ offsFrom (b + (flat vs).length) ws := by
  induction vs generalizing b with
  | nil => simp [offsFrom]
  | cons v vs ih => simp [offsFrom, ih, Nat.add_assoc]

theorem offsFrom_mod {b b' : Nat} (h : b % 2 ^ 64 = b' % 2 ^ 64) (vs : List View) :
    offsFrom b vs = offsFrom b' vs := by
  induction vs generalizing b b' with
  | nil => rfl
  | cons v vs ih =>
    simp only [offsFrom, h]
    rw [ih (b := b + v.data.length) (b' := b' + v.data.length) (by omega)]

@[simp] theorem offsFrom_length (b : Nat) (vs : List View) : (offsFrom b vs).length = vs.length := by
  induction vs generalizing b with
  | nil => rfl
  | cons v vs ih => simp [offsFrom, ih]

/-- The array of block offsets describes the blocks. -/
def ArrOk (a : Option Arr) (vs : List View) : Prop :=
  match a with
  | none => vs.length ≤ 2
  | some a => ∃ b, a.offs = offsFrom b vs

/-- Chain `c` has blocks `vs`, and `E` are all other references to blocks. -/
structure Abs (H : Heap) (c : Ch) (vs : List View) (E : List Nat) : Prop where
  good : Good H (c.blocks ++ E)
  views : c.blocks.map (view H) = vs.map some
  arr : ArrOk c.arr vs
  short : c.short.length = maxShort

/-- Nothing but the blocks changed. -/
def Keep (c c' : Ch) : Prop := c'.size = c.size ∧ c'.short = c.short

theorem Keep.refl (c : Ch) : Keep c c := ⟨rfl, rfl⟩
theorem Keep.trans {a b c : Ch} (h : Keep a b) (h' : Keep b c) : Keep a c :=
  ⟨h'.1.trans h.1, h'.2.trans h.2⟩

theorem Abs.length {H : Heap} {c : Ch} {vs : List View} {E : List Nat} (a : Abs H c vs E) :
    c.blocks.length = vs.length := by
  have := congrArg List.length a.views
  simpa using this

theorem Abs.nil_iff {H : Heap} {c : Ch} {vs : List View} {E : List Nat} (a : Abs H c vs E) :
    c.blocks = [] ↔ vs = [] := by
  have := a.length
  constructor
  · intro h; rw [h] at this; simpa using this.symm
  · intro h; rw [h] at this; simpa using this

theorem Abs.ext {H : Heap} {c c' : Ch} {vs : List View} {E : List Nat} (a : Abs H c vs E)
    (h1 : c'.blocks = c.blocks) (h2 : c'.arr = c.arr) (h3 : c'.short.length = c.short.length) :
    Abs H c' vs E :=
  ⟨by rw [h1]; exact a.good, by rw [h1]; exact a.views, by rw [h2]; exact a.arr,
    by rw [h3]; exact a.short⟩

/-- The order of other references does not matter. -/
theorem Abs.congr {H : Heap} {c : Ch} {vs : List View} {E E' : List Nat} (a : Abs H c vs E)
    (h : ∀ x, E'.count x = E.count x) : Abs H c vs E' :=
  ⟨a.good.congr fun x => by simp [h], a.views, a.arr, a.short⟩

theorem Abs.step {H H' : Heap} {c : Ch} {vs : List View} {E E' : List Nat} (a : Abs H c vs E)
    (g : Good H' (c.blocks ++ E')) (s : Same H H' c.blocks) : Abs H' c vs E' := by
  refine ⟨g, ?_, a.arr, a.short⟩
  rw [← a.views]
  exact List.map_congr_left fun j hj => s j hj

/-- The blocks and other references, with one of the others in front. -/
theorem Abs.held {H : Heap} {c : Ch} {vs : List View} {b : Nat} {E : List Nat}
    (a : Abs H c vs (b :: E)) : Good H (b :: (c.blocks ++ E)) :=
  a.good.congr fun x => by simp [List.count_cons]; omega

theorem Abs.unref {H : Heap} {c : Ch} {vs : List View} {b : Nat} {E : List Nat}
    (a : Abs H c vs (b :: E)) :
    ∃ H', Chn.unref H b = some H' ∧ Abs H' c vs E ∧ Same H H' E := by
  obtain ⟨H', h1, h2, h3⟩ := unref_spec a.held
  exact ⟨H', h1, a.step h2 (h3.mono fun j hj => by simp [hj]), h3.mono fun j hj => by simp [hj]⟩

theorem Abs.ref {H : Heap} {c : Ch} {vs : List View} {b : Nat} {E : List Nat}
    (a : Abs H c vs E) (hb : b ∈ c.blocks ++ E) :
    ∃ H', Chn.ref H b = some H' ∧ Abs H' c vs (b :: E) ∧ Same H H' (c.blocks ++ E) := by
  obtain ⟨H', h1, h2, h3⟩ := ref_spec a.good hb
  refine ⟨H', h1, a.step (h2.congr fun x => ?_) (h3.mono fun j hj => by simp [hj]), h3⟩
  simp [List.count_cons]; omega

/-- A block made aside. -/
theorem Abs.fresh {H H' : Heap} {c : Ch} {vs : List View} {b n : Nat} {d : Bytes} {E : List Nat}
    (a : Abs H c vs E) (f : Fresh H (c.blocks ++ E) H' b d n) : Abs H' c vs (b :: E) := by
  refine a.step (f.good.congr fun x => ?_) (f.same.mono fun j hj => by simp [hj])
  simp [List.count_cons]; omega

/-- Every block of a chain fits in memory. -/
theorem view_le {H : Heap} {hs : List Nat} (g : Good H hs) :
    ∀ (id : Nat) (r : Raw) (v : View), H[id]? = some r → r.refs ≠ 0 → view H id = some v →
      v.data.length ≤ maxCap ∧ ∀ c, v.cap = some c → c ≤ maxCap ∧ v.data.length ≤ c := by
  intro id
  induction id using Nat.strongRecOn with
  | ind id ih =>
    intro r v h h0 hv
    rw [view_eq, h] at hv
    simp only [h0, if_false] at hv
    have hk := g.body id r h h0
    cases hb : r.body with
    | internal mem beg len =>
      rw [hb] at hk hv
      obtain ⟨hk1, hk2⟩ := hk
      simp only [Option.some.injEq] at hv
      subst hv
      have h9 := slice_length_le mem beg len
      refine ⟨by simp only; omega, ?_⟩
      intro c hc
      simp only [Option.some.injEq] at hc
      subst hc
      exact ⟨hk2, h9⟩
    | external d =>
      rw [hb] at hk hv
      simp only [Option.some.injEq] at hv
      subst hv
      exact ⟨hk, fun c hc => by cases hc⟩
    | sub o off len =>
      obtain ⟨s, hs1, hs2, hs3, hs4⟩ := g.owner_live h h0 hb
      obtain ⟨w, hw1, hw2, _⟩ := view_live g o s hs1 hs2
      have h9 := ih o hs3 s w hs1 hs2 hw1
      rw [hb] at hv
      simp only [hs3, if_true, hw1, Option.map_some, Option.some.injEq] at hv
      subst hv
      refine ⟨?_, fun c hc => by cases hc⟩
      have := slice_length_le w.data off len
      simp only
      omega

theorem Good.view_le {H : Heap} {hs : List Nat} (g : Good H hs) {id : Nat} {v : View}
    (hm : id ∈ hs) (hv : Chn.view H id = some v) :
    v.data.length ≤ maxCap ∧ ∀ c, v.cap = some c → c ≤ maxCap ∧ v.data.length ≤ c := by
  obtain ⟨r, h1, h2⟩ := g.live hm
  exact Chn.view_le g id r v h1 h2 hv

theorem Abs.block_le {H : Heap} {c : Ch} {vs : List View} {E : List Nat} (a : Abs H c vs E)
    {v : View} (hv : v ∈ vs) :
    v.data.length ≤ maxCap ∧ ∀ k, v.cap = some k → k ≤ maxCap ∧ v.data.length ≤ k := by
  have h1 : some v ∈ c.blocks.map (Chn.view H) := by rw [a.views]; simpa using hv
  obtain ⟨id, h2, h3⟩ := List.mem_map.1 h1
  exact a.good.view_le (by simp [h2]) h3

/-! ### The ends -/

theorem Abs.last {H : Heap} {c : Ch} {vs : List View} {v : View} {E : List Nat}
    (a : Abs H c (vs ++ [v]) E) :
    ∃ ids l, c.blocks = ids ++ [l] ∧ back c = some l ∧ view H l = some v ∧
      ids.map (view H) = vs.map some ∧ Good H (l :: (ids ++ E)) ∧ c.blocks ≠ [] := by
  have hne : c.blocks ≠ [] := by
    intro h
    have := a.nil_iff.1 h
    simp at this
  have h1 := List.dropLast_concat_getLast hne
  have h2 := a.views
  rw [← h1] at h2
  simp only [List.map_append, List.map_cons, List.map_nil] at h2
  obtain ⟨h3, h4⟩ := List.append_inj' h2 rfl
  refine ⟨c.blocks.dropLast, c.blocks.getLast hne, h1.symm, ?_, by simpa using h4, h3, ?_, hne⟩
  · exact List.getLast?_eq_some_getLast hne
  · have hg := a.good
    rw [← h1] at hg
    exact hg.congr fun x => by simp [List.count_cons]; omega

theorem Abs.first {H : Heap} {c : Ch} {vs : List View} {v : View} {E : List Nat}
    (a : Abs H c (v :: vs) E) :
    ∃ ids f, c.blocks = f :: ids ∧ front c = some f ∧ view H f = some v ∧
      ids.map (view H) = vs.map some ∧ Good H (f :: (ids ++ E)) ∧ c.blocks ≠ [] := by
  have h2 := a.views
  cases hb : c.blocks with
  | nil => rw [hb] at h2; simp at h2
  | cons f ids =>
    rw [hb] at h2
    simp only [List.map_cons, List.cons.injEq] at h2
    refine ⟨ids, f, rfl, by simp [front, hb], h2.1, h2.2, ?_, by simp⟩
    have hg := a.good
    rw [hb] at hg
    simpa using hg

/-- The last block was changed. -/
theorem Abs.modLast {H H' : Heap} {c : Ch} {vs : List View} {v w : View} {E ids : List Nat} {l : Nat}
    (a : Abs H c (vs ++ [v]) E) (hb : c.blocks = ids ++ [l]) (g : Good H' (l :: (ids ++ E)))
    (s : Same H H' (ids ++ E)) (hw : view H' l = some w) : Abs H' c (vs ++ [w]) E := by
  refine ⟨?_, ?_, ?_, a.short⟩
  · rw [hb]; exact g.congr fun x => by simp [List.count_cons]; omega
  · have h2 := a.views
    rw [hb] at h2 ⊢
    simp only [List.map_append, List.map_cons, List.map_nil] at h2 ⊢
    obtain ⟨h3, h4⟩ := List.append_inj' h2 rfl
    rw [hw, ← h3]
    congr 1
    exact List.map_congr_left fun j hj => s j (by simp [hj])
  · have h3 := a.arr
    unfold ArrOk at h3 ⊢
    split
    · rename_i h9; rw [h9] at h3; simpa using h3
    · rename_i x h9
      rw [h9] at h3
      obtain ⟨b, hb'⟩ := h3
      refine ⟨b, ?_⟩
      rw [hb', offsFrom_append, offsFrom_append]; rfl

/-- The first block was changed, keeping its size. -/
theorem Abs.modFirstSame {H H' : Heap} {c : Ch} {vs : List View} {v w : View} {E ids : List Nat}
    {f : Nat} (a : Abs H c (v :: vs) E) (hb : c.blocks = f :: ids) (g : Good H' (f :: (ids ++ E)))
    (s : Same H H' (ids ++ E)) (hw : view H' f = some w) (hl : w.data.length = v.data.length) :
    Abs H' c (w :: vs) E := by
  refine ⟨?_, ?_, ?_, a.short⟩
  · rw [hb]; simpa using g
  · have h2 := a.views
    rw [hb] at h2 ⊢
    simp only [List.map_cons, List.cons.injEq] at h2 ⊢
    refine ⟨hw, ?_⟩
    rw [← h2.2]
    exact List.map_congr_left fun j hj => s j (by simp [hj])
  · have h3 := a.arr
    unfold ArrOk at h3 ⊢
    split
    · rename_i h9; rw [h9] at h3; simpa using h3
    · rename_i x h9
      rw [h9] at h3
      obtain ⟨b, hb'⟩ := h3
      refine ⟨b, ?_⟩
      rw [hb']; simp [offsFrom, hl]

theorem sub_mod {b n : Nat} (hn : n ≤ 2 ^ 64) :
    wrap ((b + n) % 2 ^ 64 + 2 ^ 64 - n) = b % 2 ^ 64 := by
  unfold wrap; omega

theorem exists_before (b n : Nat) : ∃ b', (b' + n) % 2 ^ 64 = b % 2 ^ 64 :=
  ⟨b + n * (2 ^ 64 - 1), by omega⟩

/-- The first block was changed, and then its offset is updated. -/
theorem Abs.modFirst {H H' : Heap} {c : Ch} {vs : List View} {v w : View} {E ids : List Nat}
    {f : Nat} (a : Abs H c (v :: vs) E) (hb : c.blocks = f :: ids) (g : Good H' (f :: (ids ++ E)))
    (s : Same H H' (ids ++ E)) (hw : view H' f = some w) :
    ∃ c', refreshFront H' c = some c' ∧ Abs H' c' (w :: vs) E ∧ Keep c c' ∧
      c'.blocks = c.blocks := by
  have hle := (g.view_le (id := f) (by simp) hw).1
  have h2 := a.views
  rw [hb] at h2
  simp only [List.map_cons, List.cons.injEq] at h2
  have hviews : c.blocks.map (view H') = (w :: vs).map some := by
    rw [hb]
    simp only [List.map_cons, List.cons.injEq]
    refine ⟨hw, ?_⟩
    rw [← h2.2]
    exact List.map_congr_left fun j hj => s j (by simp [hj])
  have hgood : Good H' (c.blocks ++ E) := by rw [hb]; simpa using g
  have hlen := a.length
  unfold refreshFront
  cases harr : c.arr with
  | none =>
    refine ⟨c, rfl, ⟨hgood, hviews, ?_, a.short⟩, Keep.refl c, rfl⟩
    have h3 := a.arr
    rw [harr] at h3 ⊢
    simpa [ArrOk] using h3
  | some x =>
    have h3 := a.arr
    rw [harr] at h3
    obtain ⟨b, hx⟩ := h3
    cases ids with
    | nil =>
      rw [hb] at hlen
      have : vs = [] := by simpa using hlen.symm
      subst this
      simp only [hb]
      refine ⟨_, rfl, ⟨?_, ?_, ⟨0, ?_⟩, a.short⟩, ⟨rfl, rfl⟩, ?_⟩
      · exact (by rw [hb] at hgood; exact hgood)
      · exact (by rw [hb] at hviews; exact hviews)
      · simp [offsFrom]
      · rfl
    | cons i ids =>
      rw [hb] at hlen
      obtain ⟨v2, vs2, rfl⟩ : ∃ v2 vs2, vs = v2 :: vs2 := by
        cases vs with
        | nil => simp at hlen
        | cons p q => exact ⟨p, q, rfl⟩
      simp only [hb]
      have hs : sizeOf H' f = some w.data.length := by simp [sizeOf, hw]
      simp only [hs, hx, offsFrom, List.tail_cons, List.head?_cons, Option.bind_eq_bind,
        Option.bind_some]
      obtain ⟨b', hb'⟩ := exists_before (b + v.data.length) w.data.length
      refine ⟨_, rfl, ⟨?_, ?_, ⟨b', ?_⟩, a.short⟩, ⟨rfl, rfl⟩, rfl⟩
      · rw [hb] at hgood; exact hgood
      · rw [hb] at hviews; exact hviews
      · show _ :: _ = _ :: _ :: _
        rw [← hb', sub_mod (by unfold maxCap at hle; omega),
          offsFrom_mod (b := b + v.data.length + v2.data.length)
            (b' := b' + w.data.length + v2.data.length) (by omega)]

/-! ### Popping -/

theorem Abs.popBack {H : Heap} {c : Ch} {vs : List View} {v : View} {E : List Nat}
    (a : Abs H c (vs ++ [v]) E) :
    ∃ c' b, Chn.popBack c = some (c', b) ∧ Abs H c' vs (b :: E) ∧ view H b = some v ∧ Keep c c' ∧
      back c = some b ∧ c'.blocks = c.blocks.dropLast ∧ c.blocks = c'.blocks ++ [b] := by
  obtain ⟨ids, l, h1, h2, h3, h4, h5, h6⟩ := a.last
  unfold Chn.popBack
  rw [h2]
  refine ⟨_, l, rfl, ⟨?_, ?_, ?_, a.short⟩, h3, ⟨rfl, rfl⟩, rfl, rfl, ?_⟩
  · rw [h1]
    simp only [List.dropLast_concat]
    exact h5.congr fun x => by simp [List.count_cons]; omega
  · rw [h1]
    simpa using h4
  · have h7 := a.arr
    cases harr : c.arr with
    | none =>
      rw [harr] at h7
      simp [ArrOk] at h7 ⊢
      omega
    | some x =>
      rw [harr] at h7
      obtain ⟨b, hb⟩ := h7
      refine ⟨b, ?_⟩
      simp only [hb, offsFrom_append, offsFrom]
      simp
  · simp [h1]

theorem Abs.popFront {H : Heap} {c : Ch} {vs : List View} {v : View} {E : List Nat}
    (a : Abs H c (v :: vs) E) :
    ∃ c' b, Chn.popFront c = some (c', b) ∧ Abs H c' vs (b :: E) ∧ view H b = some v ∧ Keep c c' ∧
      front c = some b ∧ c'.blocks = c.blocks.tail ∧ c.blocks = b :: c'.blocks := by
  obtain ⟨ids, l, h1, h2, h3, h4, h5, h6⟩ := a.first
  unfold Chn.popFront
  rw [h2]
  refine ⟨_, l, rfl, ⟨?_, ?_, ?_, a.short⟩, h3, ⟨rfl, rfl⟩, rfl, rfl, ?_⟩
  · rw [h1]
    simp only [List.tail_cons]
    exact h5.congr fun x => by simp [List.count_cons]; omega
  · rw [h1]
    simpa using h4
  · have h7 := a.arr
    cases harr : c.arr with
    | none =>
      rw [harr] at h7
      simp [ArrOk] at h7 ⊢
      omega
    | some x =>
      rw [harr] at h7
      obtain ⟨b, hb⟩ := h7
      refine ⟨b + v.data.length, ?_⟩
      simp [hb, offsFrom]
  · simp [h1]

/-! ### Replacing -/

theorem Abs.setBack {H : Heap} {c : Ch} {vs : List View} {v w : View} {b : Nat} {E : List Nat}
    (a : Abs H c (vs ++ [v]) (b :: E)) (hw : view H b = some w) :
    ∃ c' old, Chn.setBack c b = some (c', old) ∧ Abs H c' (vs ++ [w]) (old :: E) ∧
      view H old = some v ∧ Keep c c' ∧ back c = some old ∧ c'.blocks = c.blocks.dropLast ++ [b] := by
  obtain ⟨ids, l, h1, h2, h3, h4, h5, h6⟩ := a.last
  unfold Chn.setBack
  rw [h2]
  refine ⟨_, l, rfl, ⟨?_, ?_, ?_, a.short⟩, h3, ⟨rfl, rfl⟩, rfl, rfl⟩
  · rw [h1]
    simp only [List.dropLast_concat]
    exact h5.congr fun x => by simp [List.count_cons]; omega
  · rw [h1]
    simp [h4, hw]
  · have h7 := a.arr
    simp only
    cases harr : c.arr with
    | none =>
      rw [harr] at h7
      simpa [ArrOk] using h7
    | some x =>
      rw [harr] at h7
      obtain ⟨b, hb⟩ := h7
      exact ⟨b, by simp only [hb, offsFrom_append, offsFrom]⟩

theorem Abs.setFrontSameSize {H : Heap} {c : Ch} {vs : List View} {v w : View} {b : Nat}
    {E : List Nat} (a : Abs H c (v :: vs) (b :: E)) (hw : view H b = some w)
    (hl : w.data.length = v.data.length) :
    ∃ c' old, Chn.setFrontSameSize c b = some (c', old) ∧ Abs H c' (w :: vs) (old :: E) ∧
      view H old = some v ∧ Keep c c' ∧ front c = some old ∧ c'.blocks = b :: c.blocks.tail := by
  obtain ⟨ids, l, h1, h2, h3, h4, h5, h6⟩ := a.first
  unfold Chn.setFrontSameSize
  rw [h2]
  refine ⟨_, l, rfl, ⟨?_, ?_, ?_, a.short⟩, h3, ⟨rfl, rfl⟩, rfl, rfl⟩
  · rw [h1]
    simp only [List.tail_cons]
    exact h5.congr fun x => by simp [List.count_cons]; omega
  · rw [h1]
    simp [h4, hw]
  · have h7 := a.arr
    simp only
    cases harr : c.arr with
    | none =>
      rw [harr] at h7
      simpa [ArrOk] using h7
    | some x =>
      rw [harr] at h7
      obtain ⟨b, hb⟩ := h7
      exact ⟨b, by simp only [hb, offsFrom, hl]⟩

theorem Abs.setFront {H : Heap} {c : Ch} {vs : List View} {v w : View} {b : Nat}
    {E : List Nat} (a : Abs H c (v :: vs) (b :: E)) (hw : view H b = some w) :
    ∃ c' old, Chn.setFront H c b = some (c', old) ∧ Abs H c' (w :: vs) (old :: E) ∧
      view H old = some v ∧ Keep c c' ∧ front c = some old ∧ c'.blocks = b :: c.blocks.tail := by
  obtain ⟨ids, l, h1, h2, h3, h4, h5, h6⟩ := a.first
  have hb9 : b :: c.blocks.tail = b :: ids := by rw [h1]; rfl
  -- an intermediate chain with a block of the old size in front
  have hset : Chn.setFrontSameSize c b = some ({ c with blocks := b :: c.blocks.tail }, l) := by
    unfold Chn.setFrontSameSize; rw [h2]
  have hle := (a.good.view_le (id := b) (by simp) hw).1
  unfold Chn.setFront
  simp only [hset, Option.bind_eq_bind, Option.bind_some]
  have hg : Good H (b :: (ids ++ (l :: E))) := h5.congr fun x => by
    simp [List.count_cons]; omega
  -- the offset of the first block does not matter
  unfold refreshFront
  have h7 := a.arr
  have hlen := a.length
  cases harr : c.arr with
  | none =>
    refine ⟨_, l, rfl, ⟨?_, ?_, ?_, a.short⟩, h3, ⟨rfl, rfl⟩, h2, rfl⟩
    · simp only [h1, List.tail_cons]; simpa using hg
    · simp only [h1, List.tail_cons]; simp [hw, h4]
    · rw [harr] at h7; simpa [ArrOk] using h7
  | some x =>
    rw [harr] at h7
    obtain ⟨b0, hx⟩ := h7
    simp only [h1, List.tail_cons]
    cases ids with
    | nil =>
      rw [h1] at hlen
      have : vs = [] := by simpa using hlen.symm
      subst this
      refine ⟨_, l, rfl, ⟨?_, ?_, ⟨0, ?_⟩, a.short⟩, h3, ⟨rfl, rfl⟩, h2, rfl⟩
      · simpa using hg
      · simp [hw]
      · simp [offsFrom]
    | cons i ids =>
      rw [h1] at hlen
      obtain ⟨v2, vs2, rfl⟩ : ∃ v2 vs2, vs = v2 :: vs2 := by
        cases vs with
        | nil => simp at hlen
        | cons p q => exact ⟨p, q, rfl⟩
      have hs : sizeOf H b = some w.data.length := by simp [sizeOf, hw]
      simp only [hs, hx, offsFrom, List.tail_cons, List.head?_cons]
      obtain ⟨b', hb'⟩ := exists_before (b0 + v.data.length) w.data.length
      refine ⟨_, l, rfl, ⟨?_, ?_, ⟨b', ?_⟩, a.short⟩, h3, ⟨rfl, rfl⟩, h2, rfl⟩
      · simpa using hg
      · simp only [List.map_cons, hw, List.cons.injEq, true_and]; simpa using h4
      · show _ :: _ = _ :: _ :: _
        rw [← hb', sub_mod (by unfold maxCap at hle; omega),
          offsFrom_mod (b := b0 + v.data.length + v2.data.length)
            (b' := b' + w.data.length + v2.data.length) (by omega)]

/-! ### Pushing -/

/-- How many blocks can be added after the last one. -/
def RoomBack (c : Ch) (n : Nat) : Prop :=
  match c.arr with
  | none => c.blocks.length + n ≤ 2
  | some a => n ≤ a.after
/-- How many blocks can be added before the first one. -/
def RoomFront (c : Ch) (n : Nat) : Prop :=
  match c.arr with
  | none => c.blocks.length + n ≤ 2
  | some a => n ≤ a.before

theorem initialOffs_spec {H : Heap} {c : Ch} {vs : List View} {E : List Nat}
    (a : Abs H c vs E) (hl : vs.length ≤ 2) :
    initialOffs H c.blocks = some (offsFrom 0 vs) := by
  have hlen := a.length
  have hv := a.views
  match hb : c.blocks, vs with
  | [], [] => rfl
  | [_], [v] => rfl
  | [i, j], [v, w] =>
    have hle := (a.block_le (v := v) (by simp)).1
    rw [hb] at hv
    simp only [List.map_cons, List.map_nil, List.cons.injEq, and_true] at hv
    simp only [initialOffs, sizeOf, hv.1, Option.map_some, Option.bind_eq_bind, Option.bind_some,
      offsFrom]
    simp
    unfold maxCap at hle
    omega
  | [], _ :: _ => rw [hb] at hlen; simp at hlen
  | _ :: _, [] => rw [hb] at hlen; simp at hlen
  | [_], _ :: _ :: _ => rw [hb] at hlen; simp at hlen
  | _ :: _ :: _, [_] => rw [hb] at hlen; simp at hlen
  | _ :: _ :: _ :: _, [_, _] => rw [hb] at hlen; simp at hlen
  | _, _ :: _ :: _ :: _ => simp at hl

theorem Abs.reserveBack {H : Heap} {c : Ch} {vs : List View} {E : List Nat}
    (a : Abs H c vs E) (n : Nat) :
    ∃ c', Chn.reserveBack H c n = some c' ∧ Abs H c' vs E ∧ Keep c c' ∧ c'.blocks = c.blocks ∧
      RoomBack c' n := by
  have h7 := a.arr
  have hlen := a.length
  unfold Chn.reserveBack
  cases harr : c.arr with
  | none =>
    rw [harr] at h7
    simp only [ArrOk] at h7
    simp only
    split
    · refine ⟨c, rfl, a, Keep.refl c, rfl, ?_⟩
      simp only [RoomBack, harr]; omega
    · simp only [initialOffs_spec a h7, Option.bind_eq_bind, Option.bind_some]
      refine ⟨_, rfl, ⟨a.good, a.views, ⟨0, rfl⟩, a.short⟩, ⟨rfl, rfl⟩, rfl, ?_⟩
      simp only [RoomBack]; omega
  | some x =>
    rw [harr] at h7
    simp only
    split
    · refine ⟨c, rfl, a, Keep.refl c, rfl, ?_⟩
      simp only [RoomBack, harr]; omega
    · split
      · refine ⟨_, rfl, ⟨a.good, a.views, h7, a.short⟩, ⟨rfl, rfl⟩, rfl, ?_⟩
        simp only [RoomBack]; omega
      · refine ⟨_, rfl, ⟨a.good, a.views, h7, a.short⟩, ⟨rfl, rfl⟩, rfl, ?_⟩
        simp only [RoomBack]; omega

theorem Abs.reserveFront {H : Heap} {c : Ch} {vs : List View} {E : List Nat}
    (a : Abs H c vs E) (n : Nat) :
    ∃ c', Chn.reserveFront H c n = some c' ∧ Abs H c' vs E ∧ Keep c c' ∧ c'.blocks = c.blocks ∧
      RoomFront c' n := by
  have h7 := a.arr
  have hlen := a.length
  unfold Chn.reserveFront
  cases harr : c.arr with
  | none =>
    rw [harr] at h7
    simp only [ArrOk] at h7
    simp only
    split
    · refine ⟨c, rfl, a, Keep.refl c, rfl, ?_⟩
      simp only [RoomFront, harr]; omega
    · simp only [initialOffs_spec a h7, Option.bind_eq_bind, Option.bind_some]
      refine ⟨_, rfl, ⟨a.good, a.views, ⟨0, rfl⟩, a.short⟩, ⟨rfl, rfl⟩, rfl, ?_⟩
      simp only [RoomFront]; omega
  | some x =>
    rw [harr] at h7
    simp only
    split
    · refine ⟨c, rfl, a, Keep.refl c, rfl, ?_⟩
      simp only [RoomFront, harr]; omega
    · split
      · refine ⟨_, rfl, ⟨a.good, a.views, h7, a.short⟩, ⟨rfl, rfl⟩, rfl, ?_⟩
        simp only [RoomFront]; omega
      · refine ⟨_, rfl, ⟨a.good, a.views, h7, a.short⟩, ⟨rfl, rfl⟩, rfl, ?_⟩
        simp only [RoomFront]; omega

theorem Abs.pushRaw {H : Heap} {c : Ch} {vs : List View} {v : View} {b n : Nat} {E : List Nat}
    (a : Abs H c vs (b :: E)) (hv : view H b = some v) (hr : RoomBack c (n + 1)) :
    ∃ c', Chn.pushRaw H c b = some c' ∧ Abs H c' (vs ++ [v]) E ∧ Keep c c' ∧
      c'.blocks = c.blocks ++ [b] ∧ RoomBack c' n := by
  have h7 := a.arr
  have hlen := a.length
  have hg : Good H ((c.blocks ++ [b]) ++ E) := a.good.congr fun x => by
    simp [List.count_cons]
  have hvs : (c.blocks ++ [b]).map (view H) = (vs ++ [v]).map some := by
    simp [a.views, hv]
  unfold Chn.pushRaw
  cases harr : c.arr with
  | none =>
    rw [harr] at h7
    simp only [ArrOk] at h7
    simp only [RoomBack, harr] at hr
    simp only
    rw [if_pos (by omega)]
    refine ⟨_, rfl, ⟨hg, hvs, ?_, a.short⟩, ⟨rfl, rfl⟩, rfl, ?_⟩
    · simp only [ArrOk, List.length_append, List.length_singleton]; omega
    · simp only [RoomBack, List.length_append, List.length_singleton]; omega
  | some x =>
    rw [harr] at h7
    obtain ⟨b0, hx⟩ := h7
    simp only [RoomBack, harr] at hr
    simp only
    rw [if_neg (by omega)]
    rcases List.eq_nil_or_concat vs with hnil | ⟨ws, w, rfl⟩
    · subst hnil
      have hb : c.blocks = [] := a.nil_iff.2 rfl
      have : back c = none := by simp [back, hb]
      rw [this]
      refine ⟨_, rfl, ⟨hg, hvs, ⟨0, ?_⟩, a.short⟩, ⟨rfl, rfl⟩, rfl, ?_⟩
      · simp [hx, offsFrom]
      · simp only [RoomBack]; omega
    · simp only [List.concat_eq_append] at *
      obtain ⟨ids, l, h1, h2, h3, h4, h5, h6⟩ := a.last
      rw [h2]
      have hs : sizeOf H l = some w.data.length := by simp [sizeOf, h3]
      have hl : x.offs.getLast? = some ((b0 + (flat ws).length) % 2 ^ 64) := by
        rw [hx, offsFrom_append]; simp [offsFrom]
      simp only [hs, hl, Option.bind_eq_bind, Option.bind_some]
      refine ⟨_, rfl, ⟨hg, hvs, ⟨b0, ?_⟩, a.short⟩, ⟨rfl, rfl⟩, rfl, ?_⟩
      · rw [offsFrom_append b0 (ws ++ [w]), ← hx]
        simp [offsFrom, wrap]
        omega
      · simp only [RoomBack]; omega

theorem Abs.pushRawFront {H : Heap} {c : Ch} {vs : List View} {v : View} {b n : Nat} {E : List Nat}
    (a : Abs H c vs (b :: E)) (hv : view H b = some v) (hr : RoomFront c (n + 1)) :
    ∃ c', Chn.pushRawFront H c b = some c' ∧ Abs H c' (v :: vs) E ∧ Keep c c' ∧
      c'.blocks = b :: c.blocks ∧ RoomFront c' n := by
  have h7 := a.arr
  have hlen := a.length
  have hg : Good H ((b :: c.blocks) ++ E) := a.held
  have hvs : (b :: c.blocks).map (view H) = (v :: vs).map some := by
    simp [a.views, hv]
  have hle := (a.good.view_le (id := b) (by simp) hv).1
  unfold Chn.pushRawFront
  cases harr : c.arr with
  | none =>
    rw [harr] at h7
    simp only [ArrOk] at h7
    simp only [RoomFront, harr] at hr
    simp only
    rw [if_pos (by omega)]
    refine ⟨_, rfl, ⟨hg, hvs, ?_, a.short⟩, ⟨rfl, rfl⟩, rfl, ?_⟩
    · simp only [ArrOk, List.length_cons]; omega
    · simp only [RoomFront, List.length_cons]; omega
  | some x =>
    rw [harr] at h7
    obtain ⟨b0, hx⟩ := h7
    simp only [RoomFront, harr] at hr
    simp only
    rw [if_neg (by omega)]
    cases vs with
    | nil =>
      have hb : c.blocks = [] := a.nil_iff.2 rfl
      rw [if_pos hb]
      refine ⟨_, rfl, ⟨hg, hvs, ⟨0, ?_⟩, a.short⟩, ⟨rfl, rfl⟩, rfl, ?_⟩
      · simp [hx, offsFrom]
      · simp only [RoomFront]; omega
    | cons w ws =>
      have hb : c.blocks ≠ [] := fun h => by have := a.nil_iff.1 h; cases this
      rw [if_neg hb]
      have hs : sizeOf H b = some v.data.length := by simp [sizeOf, hv]
      simp only [hs, hx, offsFrom, List.head?_cons, Option.bind_eq_bind, Option.bind_some]
      obtain ⟨b', hb'⟩ := exists_before b0 v.data.length
      refine ⟨_, rfl, ⟨hg, hvs, ⟨b', ?_⟩, a.short⟩, ⟨rfl, rfl⟩, rfl, ?_⟩
      · show _ :: _ :: _ = _ :: _ :: _
        rw [← hb', sub_mod (by unfold maxCap at hle; omega),
          offsFrom_mod (b := b0 + w.data.length)
            (b' := b' + v.data.length + w.data.length) (by omega)]
      · simp only [RoomFront]; omega

theorem Abs.pushBack {H : Heap} {c : Ch} {vs : List View} {v : View} {b : Nat} {E : List Nat}
    (a : Abs H c vs (b :: E)) (hv : view H b = some v) :
    ∃ c', Chn.pushBack H c b = some c' ∧ Abs H c' (vs ++ [v]) E ∧ Keep c c' ∧
      c'.blocks = c.blocks ++ [b] := by
  obtain ⟨c1, h1, a1, k1, e1, r1⟩ := a.reserveBack 1
  obtain ⟨c2, h2, a2, k2, e2, _⟩ := a1.pushRaw (n := 0) hv r1
  refine ⟨c2, ?_, a2, k1.trans k2, by rw [e2, e1]⟩
  unfold Chn.pushBack
  simp only [h1, h2, Option.bind_eq_bind, Option.bind_some]

theorem Abs.pushFront {H : Heap} {c : Ch} {vs : List View} {v : View} {b : Nat} {E : List Nat}
    (a : Abs H c vs (b :: E)) (hv : view H b = some v) :
    ∃ c', Chn.pushFront H c b = some c' ∧ Abs H c' (v :: vs) E ∧ Keep c c' ∧
      c'.blocks = b :: c.blocks := by
  obtain ⟨c1, h1, a1, k1, e1, r1⟩ := a.reserveFront 1
  obtain ⟨c2, h2, a2, k2, e2, _⟩ := a1.pushRawFront (n := 0) hv r1
  refine ⟨c2, ?_, a2, k1.trans k2, by rw [e2, e1]⟩
  unfold Chn.pushFront
  simp only [h1, h2, Option.bind_eq_bind, Option.bind_some]

end Riegeli.Chn

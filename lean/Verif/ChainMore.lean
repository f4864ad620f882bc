import Verif.ChainPrepend
/-!
# Chain: whole blocks and other chains
-/
namespace Riegeli.Chn

/-- References held after an operation which was given `ids`. -/
def rest (own : Ownership) (ids E : List Nat) : List Nat :=
  match own with
  | .pass => E
  | .share => ids ++ E

theorem rest_subset {own : Ownership} {ids E : List Nat} {j : Nat} (h : j ∈ rest own ids E) :
    j ∈ ids ++ E := by
  cases own <;> simp [rest] at h ⊢ <;> simp [h]

theorem Abs.dropO {H : Heap} {c : Ch} {vs : List View} {b : Nat} {E : List Nat}
    (a : Abs H c vs (b :: E)) (own : Ownership) :
    ∃ H', unrefO H b own = some H' ∧ Abs H' c vs (rest own [b] E) ∧ Same H H' (rest own [b] E) := by
  cases own with
  | pass =>
    obtain ⟨H', h1, h2, h3⟩ := a.unref
    exact ⟨H', h1, h2, h3⟩
  | share => exact ⟨H, rfl, a, Same.refl _ _⟩

theorem Abs.refO {H : Heap} {c : Ch} {vs : List View} {b : Nat} {E : List Nat}
    (a : Abs H c vs (b :: E)) (own : Ownership) :
    ∃ H', Chn.refO H b own = some H' ∧ Abs H' c vs (b :: rest own [b] E) ∧
      Same H H' (c.blocks ++ b :: E) := by
  cases own with
  | pass => exact ⟨H, rfl, a, Same.refl _ _⟩
  | share =>
    obtain ⟨H', h1, h2, h3⟩ := a.ref (b := b) (by simp)
    exact ⟨H', h1, h2, h3⟩

theorem Abs.pushBackO {H : Heap} {c : Ch} {vs : List View} {v : View} {b : Nat} {E : List Nat}
    (a : Abs H c vs (b :: E)) (hv : view H b = some v) (own : Ownership) :
    ∃ H' c', Chn.pushBackO H c b own = some (H', c') ∧ Abs H' c' (vs ++ [v]) (rest own [b] E) ∧
      Keep c c' ∧ Same H H' (rest own [b] E) := by
  obtain ⟨H1, h1, a1, s1⟩ := a.refO own
  obtain ⟨c2, h2, a2, k2, _⟩ := a1.pushBack (v := v) (by rw [s1 b (by simp), hv])
  refine ⟨H1, c2, ?_, a2, k2, s1.mono fun j hj => ?_⟩
  · unfold Chn.pushBackO
    simp only [h1, h2, Option.bind_eq_bind, Option.bind_some]
  · have := rest_subset hj
    simp at this ⊢
    rcases this with h | h <;> simp [h]

theorem Abs.pushFrontO {H : Heap} {c : Ch} {vs : List View} {v : View} {b : Nat} {E : List Nat}
    (a : Abs H c vs (b :: E)) (hv : view H b = some v) (own : Ownership) :
    ∃ H' c', Chn.pushFrontO H c b own = some (H', c') ∧ Abs H' c' (v :: vs) (rest own [b] E) ∧
      Keep c c' ∧ Same H H' (rest own [b] E) := by
  obtain ⟨H1, h1, a1, s1⟩ := a.refO own
  obtain ⟨c2, h2, a2, k2, _⟩ := a1.pushFront (v := v) (by rw [s1 b (by simp), hv])
  refine ⟨H1, c2, ?_, a2, k2, s1.mono fun j hj => ?_⟩
  · unfold Chn.pushFrontO
    simp only [h1, h2, Option.bind_eq_bind, Option.bind_some]
  · have := rest_subset hj
    simp at this ⊢
    rcases this with h | h <;> simp [h]

/-- Appending to the last block in place. -/
theorem Abs.appendLast {H : Heap} {c : Ch} {vs : List View} {v : View} {E : List Nat} {l : Nat}
    (a : Abs H c (vs ++ [v]) E) (hl : back c = some l) {src : Bytes}
    (hc : canAppend H l src.length = some true) :
    ∃ H' w, blkAppend H l src = some H' ∧ Abs H' c (vs ++ [w]) E ∧ w.data = v.data ++ src ∧
      Same H H' E := by
  obtain ⟨ids, l', h1, h2, h3, h4, h5, h6⟩ := a.last
  rw [h2] at hl; cases hl
  obtain ⟨mem, beg, len, hb, hr⟩ := canAppend_true hc
  obtain ⟨H', mem', k1, k2, k3, k4, k5, k6, k7⟩ := blkAppend_spec h5 hb hr
  rw [view_internal (n := 0) hb] at h3
  cases h3
  refine ⟨H', _, k1, a.modLast h1 k2 k3 (view_internal (n := 0) k4), ?_,
    k3.mono fun j hj => by simp [hj]⟩
  simp only [k6]

/-- Prepending to the first block in place. -/
theorem Abs.prependFirst {H : Heap} {c : Ch} {vs : List View} {v : View} {E : List Nat} {l : Nat}
    (a : Abs H c (v :: vs) E) (hl : front c = some l) {src : Bytes}
    (hc : canPrepend H l src.length = some true) :
    ∃ H' c' w, blkPrepend H l src = some H' ∧ refreshFront H' c = some c' ∧ Abs H' c' (w :: vs) E ∧
      w.data = src ++ v.data ∧ Keep c c' ∧ Same H H' E := by
  obtain ⟨ids, l', h1, h2, h3, h4, h5, h6⟩ := a.first
  rw [h2] at hl; cases hl
  obtain ⟨mem, beg, len, hb, hr⟩ := canPrepend_true hc
  obtain ⟨H', mem', k1, k2, k3, k4, k5, k6, k7⟩ := blkPrepend_spec h5 hb hr
  rw [view_internal (n := 0) hb] at h3
  cases h3
  obtain ⟨c', m1, m2, m3, _⟩ := a.modFirst h1 k2 k3 (view_internal (n := 0) k4)
  refine ⟨H', c', _, k1, m1, m2, ?_, m3, k3.mono fun j hj => by simp [hj]⟩
  simp only [k6]

/-- A new block instead of the last one, with more data after it. -/
theorem Abs.mergeLast {env : Env} (he : env.Ok) {H : Heap} {c : Ch} {vs : List View} {v : View}
    {E : List Nat} (a : Abs H c (vs ++ [v]) E) {src : Bytes} {cap : Nat} (h0 : cap ≠ 0)
    (h1 : v.data.length + src.length ≤ cap) (h2 : cap ≤ maxCap) :
    ∃ H1 b H2 H3 c4 old H5 w, newInternal env H cap = some (H1, b) ∧
      blkAppend H1 b v.data = some H2 ∧ blkAppend H2 b src = some H3 ∧
      Chn.setBack c b = some (c4, old) ∧ Chn.unref H3 old = some H5 ∧ Abs H5 c4 (vs ++ [w]) E ∧
      w.data = v.data ++ src ∧ Keep c c4 ∧ Same H H5 E := by
  obtain ⟨H1, b, k1, f1, _⟩ := newInternal_fresh he a.good h0 h2
  obtain ⟨H2, k2, f2⟩ := f1.append v.data (by simp; omega)
  rw [List.nil_append] at f2
  obtain ⟨H3, k3, f3⟩ := f2.append src h1
  obtain ⟨cap3, v3, _, _⟩ := f3.toFresh.view
  have a3 := a.fresh f3.toFresh
  obtain ⟨c4, old, k4, a4, _, kk4, _, _⟩ := a3.setBack v3
  obtain ⟨H5, k5, a5, s5⟩ := a4.unref
  exact ⟨H1, b, H2, H3, c4, old, H5, _, k1, k2, k3, k4, k5, a5, rfl, kk4,
    (f3.same.mono (E := E) fun j hj => by simp [hj]).trans s5 (fun _ h => h)⟩

/-- A new block instead of the first one, with more data before it. -/
theorem Abs.mergeFirst {env : Env} (he : env.Ok) {H : Heap} {c : Ch} {vs : List View} {v : View}
    {E : List Nat} (a : Abs H c (v :: vs) E) {src : Bytes} {cap : Nat} (h0 : cap ≠ 0)
    (h1 : v.data.length + src.length ≤ cap) (h2 : cap ≤ maxCap) :
    ∃ H1 b H2 H3 c4 old H5 w, newInternal env H cap = some (H1, b) ∧
      blkPrepend H1 b v.data = some H2 ∧ blkPrepend H2 b src = some H3 ∧
      Chn.setFront H3 c b = some (c4, old) ∧ Chn.unref H3 old = some H5 ∧ Abs H5 c4 (w :: vs) E ∧
      w.data = src ++ v.data ∧ Keep c c4 ∧ Same H H5 E := by
  obtain ⟨H1, b, k1, _, f1⟩ := newInternal_fresh he a.good h0 h2
  obtain ⟨H2, k2, f2⟩ := f1.prepend v.data (by simp; omega)
  rw [List.append_nil] at f2
  obtain ⟨H3, k3, f3⟩ := f2.prepend src h1
  obtain ⟨cap3, v3, _, _⟩ := f3.toFresh.view
  have a3 := a.fresh f3.toFresh
  obtain ⟨c4, old, k4, a4, _, kk4, _, _⟩ := a3.setFront v3
  obtain ⟨H5, k5, a5, s5⟩ := a4.unref
  exact ⟨H1, b, H2, H3, c4, old, H5, _, k1, k2, k3, k4, k5, a5, rfl, kk4,
    (f3.same.mono (E := E) fun j hj => by simp [hj]).trans s5 (fun _ h => h)⟩

/-- Rewriting the last block. -/
theorem Abs.copyLast {env : Env} (he : env.Ok) {H : Heap} {c : Ch} {vs : List View} {v : View}
    {E : List Nat} {l : Nat} (a : Abs H c (vs ++ [v]) E) (hl : back c = some l) (h0 : v.data ≠ []) :
    ∃ H1 b c2 old H3 w, copyBlock env H l = some (H1, b) ∧ Chn.setBack c b = some (c2, old) ∧
      Chn.unref H1 old = some H3 ∧ Abs H3 c2 (vs ++ [w]) E ∧ w.data = v.data ∧ Keep c c2 ∧
      Same H H3 E := by
  obtain ⟨ids, l', g1, g2, g3, g4, g5, g6⟩ := a.last
  rw [g2] at hl; cases hl
  have hle := (a.block_le (v := v) (by simp)).1
  obtain ⟨H1, b1, k1, f1⟩ := copyBlock_spec he a.good (id := l) (by simp [g1]) g3 h0 hle
  obtain ⟨cap1, v1, _, _⟩ := f1.toFresh.view
  have a1 := a.fresh f1.toFresh
  obtain ⟨c2, old, k2, a2, v2, kk2, e2, _⟩ := a1.setBack v1
  obtain ⟨H3, k3, a3, s3⟩ := a2.unref
  exact ⟨H1, b1, c2, old, H3, _, k1, k2, k3, a3, rfl, kk2,
    (f1.same.mono (E := E) fun j hj => by simp [hj]).trans s3 (fun _ h => h)⟩

/-- Rewriting the first block. -/
theorem Abs.copyFirst {env : Env} (he : env.Ok) {H : Heap} {c : Ch} {vs : List View} {v : View}
    {E : List Nat} {l : Nat} (a : Abs H c (v :: vs) E) (hl : front c = some l) (h0 : v.data ≠ []) :
    ∃ H1 b c2 old H3 w, copyBlock env H l = some (H1, b) ∧ Chn.setFrontSameSize c b = some (c2, old) ∧
      Chn.unref H1 old = some H3 ∧ Abs H3 c2 (w :: vs) E ∧ w.data = v.data ∧ Keep c c2 ∧
      Same H H3 E := by
  obtain ⟨ids, l', g1, g2, g3, g4, g5, g6⟩ := a.first
  rw [g2] at hl; cases hl
  have hle := (a.block_le (v := v) (by simp)).1
  obtain ⟨H1, b1, k1, f1⟩ := copyBlock_spec he a.good (id := l) (by simp [g1]) g3 h0 hle
  obtain ⟨cap1, v1, _, _⟩ := f1.toFresh.view
  have a1 := a.fresh f1.toFresh
  obtain ⟨c2, old, k2, a2, v2, kk2, e2, _⟩ := a1.setFrontSameSize v1 rfl
  obtain ⟨H3, k3, a3, s3⟩ := a2.unref
  exact ⟨H1, b1, c2, old, H3, _, k1, k2, k3, a3, rfl, kk2,
    (f1.same.mono (E := E) fun j hj => by simp [hj]).trans s3 (fun _ h => h)⟩

/-- Short data become a block. -/
theorem Abs.shortBlock {env : Env} (he : env.Ok) {H : Heap} {c : Ch} {E : List Nat}
    (a : Abs H c [] E) (w : Wf c []) {cap : Nat} (h1 : maxShort ≤ cap) (h2 : cap ≤ maxCap) :
    ∃ H1 b H2, newInternal env H cap = some (H1, b) ∧
      blkAppendExplicit H1 b c.short c.size = some H2 ∧
      FreshA H (c.blocks ++ E) H2 b (content c []) cap := by
  have := (w.nil rfl).1
  have h3 := a.short
  obtain ⟨H1, b1, k1, f1, _⟩ := newInternal_fresh he a.good (n := cap)
    (by unfold maxShort at h1; omega) h2
  obtain ⟨H2, k2, f2⟩ := f1.appendExplicit c.short c.size (by omega) (by omega)
  rw [← content_nil] at f2
  exact ⟨H1, b1, H2, k1, k2, f2⟩

theorem Wf.of_nil {c : Ch} {vs : List View} (w : Wf c vs) (h : vs = []) : Wf c [] := h ▸ w

theorem content_length {H : Heap} {c : Ch} {E : List Nat} (a : Abs H c [] E) (w : Wf c []) :
    (content c []).length = c.size := by
  have := (w.nil rfl).1
  have h3 := a.short
  rw [content_nil]; simp; omega

/-- Merging two empty blocks asks for the capacity that the options imply, which must not
be zero (finding 23). -/
def zeroOk (c : Ch) (o : Opts) : Prop := 0 < o.minB ∧ o.hint ≠ some c.size

theorem newBlockCapacity_zero {c : Ch} {o : Opts} (ho : o.Ok) (hz : zeroOk c o) {cap : Nat}
    (h : newBlockCapacity c 0 0 0 o = some cap) : cap ≠ 0 := by
  obtain ⟨h1, h2⟩ := hz
  have := ho.maxPos
  unfold newBlockCapacity at h
  split at h
  · cases hh : o.hint with
    | none =>
      rw [hh] at h
      simp only [Option.some.injEq] at h
      omega
    | some x =>
      have : x ≠ c.size := by rintro rfl; exact h2 hh
      rw [hh] at h
      simp only [Option.some.injEq] at h
      split at h <;> omega
  · cases h

/-- `Append(Block)`, `AppendRawBlock()`. -/
theorem appendRawBlock_spec {env : Env} (he : env.Ok) {H : Heap} {c : Ch} {E : List Nat} {d : Bytes}
    {o : Opts} (ho : o.Ok) {id : Nat} {v : View} (own : Ownership) (r : Rep H c (id :: E) d)
    (hv : view H id = some v) (hz : v.data = [] → zeroOk c o)
    (hsz : d.length + v.data.length ≤ maxSize) :
    ∃ H' c', appendRawBlock env H c id own o = some (H', c') ∧
      Rep H' c' (rest own [id] E) (d ++ v.data) ∧ Same H H' (rest own [id] E) := by
  have hsize := r.size
  have hms : maxShort = 16 := rfl
  have hmc : maxCap = 2 ^ 63 - 1 := rfl
  have hmz : maxSize = 2 ^ 64 - 1 := rfl
  have hmb : minBlock = 512 := rfl
  obtain ⟨vs, a, w, hd⟩ := r
  have hvle := (a.good.view_le (id := id) (by simp) hv).1
  have hsub : ∀ j, j ∈ rest own [id] E → j ∈ id :: E := fun j hj => by simpa using rest_subset hj
  unfold appendRawBlock
  simp only [hv, Option.bind_eq_bind, Option.bind_some]
  rw [if_neg (by omega)]
  rcases List.eq_nil_or_concat vs with hnil | ⟨ws, l, hcat⟩
  · subst hnil
    have : back c = none := by simp [back, a.nil_iff.2 rfl]
    rw [this]
    have hcl := content_length a w
    have h16 := short16_some a w
    have hsd := shortData_some a w
    rw [← content_nil] at hsd
    simp only [hsd, h16, Option.bind_some]
    have w1 := (w.nil rfl).1
    cases hde : (content c []).isEmpty with
    | true =>
      simp only [if_true]
      have hd0 : content c [] = [] := List.isEmpty_iff.1 hde
      have a0 : Abs H { c with size := c.size + v.data.length } [] (id :: E) := a.ext rfl rfl rfl
      obtain ⟨H', c', k1, a1, kk, s1⟩ := a0.pushBackO hv own
      refine ⟨H', c', k1, Rep.ofBlocks a1 (by simp) ?_ ?_, s1⟩
      · rw [← hd, hd0]; simp
      · rw [kk.1, List.length_append, hsize]
    | false =>
      simp only [Bool.false_eq_true, if_false]
      cases ht : v.tiny with
      | true =>
        have ht' := view_tiny.1 ht
        simp only [if_true]
        rw [if_pos (by omega)]
        obtain ⟨cap, k0, q1, q2⟩ := newBlockCapacity_spec (c := c) (replaced := c.size)
          (minLen := max v.data.length (maxShort - c.size)) (rec := 0) ho (by omega) (by omega)
        obtain ⟨H1, b, H2, k1, k2, f2⟩ := a.shortBlock he w (cap := cap) (by omega) q2
        obtain ⟨H3, k3, f3⟩ := f2.append v.data (by omega)
        obtain ⟨cap3, v3, _, _⟩ := f3.toFresh.view
        have a3 := a.fresh f3.toFresh
        obtain ⟨c4, k4, a4, kk4, _⟩ := a3.pushBack v3
        obtain ⟨H5, k5, a5, s5⟩ := a4.dropO own
        simp only [k0, k1, k2, k3, k4, k5, Option.bind_some]
        refine ⟨_, _, rfl, Rep.ofBlocks (a5.ext rfl rfl rfl) (by simp) ?_ ?_, ?_⟩
        · rw [← hd]; simp
        · show c4.size + _ = _
          rw [kk4.1, List.length_append, hsize]
        · exact (f3.same.mono (E := rest own [id] E) fun j hj => by
            simp only [List.mem_append]; exact .inr (hsub j hj)).trans s5 (fun _ h => h)
      | false =>
        simp only [Bool.false_eq_true, if_false]
        obtain ⟨H1, b, H2, k1, k2, f2⟩ := a.shortBlock he w (cap := maxShort) (by omega) (by omega)
        obtain ⟨cap3, v3, _, _⟩ := f2.toFresh.view
        have a3 := a.fresh f2.toFresh
        obtain ⟨c4, k4, a4, kk4, _⟩ := a3.pushBack v3
        have hv4 : view H2 id = some v := by rw [f2.same id (by simp), hv]
        have a4' : Abs H2 { c4 with size := c4.size + v.data.length } ([] ++ [_]) (id :: E) :=
          a4.ext rfl rfl rfl
        obtain ⟨H5, c5, k5, a5, kk5, s5⟩ := a4'.pushBackO hv4 own
        simp only [k1, k2, k4, k5, Option.bind_some]
        refine ⟨_, _, rfl, Rep.ofBlocks a5 (by simp) ?_ ?_, ?_⟩
        · rw [← hd]; simp
        · rw [kk5.1]
          show c4.size + _ = _
          rw [kk4.1, List.length_append, hsize]
        · exact (f2.same.mono (E := rest own [id] E) fun j hj => by
            simp only [List.mem_append]; exact .inr (hsub j hj)).trans s5 (fun _ h => h)
  · rw [List.concat_eq_append] at hcat
    subst hcat
    obtain ⟨ids, b, g1, g2, g3, g4, g5, g6⟩ := a.last
    have hne : ws ++ [l] ≠ [] := by simp
    have hd' : flat (ws ++ [l]) = d := by
      unfold content at hd; rw [if_neg hne] at hd; exact hd
    have hsv : c.size = (flat (ws ++ [l])).length := w.cons hne
    have hvl : l.data.length ≤ c.size := by rw [hsv]; simp
    obtain ⟨can, k1⟩ := canAppend_some a.good (id := b) (by simp [g1]) v.data.length
    -- the data of the block were appended to the last block
    have fin : ∀ {H1 : Heap} {c1 : Ch} {x : View}, Abs H1 c1 (ws ++ [x]) (id :: E) →
        x.data = l.data ++ v.data → Keep c c1 → Same H H1 (id :: E) →
        ∃ H' c', (unrefO H1 id own).bind (fun H =>
            some (H, { c1 with size := c1.size + v.data.length })) = some (H', c') ∧
          Rep H' c' (rest own [id] E) (d ++ v.data) ∧ Same H H' (rest own [id] E) := by
      intro H1 c1 x a1 hx kk s1
      obtain ⟨H2, k2, a2, s2⟩ := a1.dropO own
      refine ⟨H2, { c1 with size := c1.size + v.data.length },
        by simp only [k2, Option.bind_some], Rep.ofBlocks (a2.ext rfl rfl rfl) (by simp) ?_ ?_,
        (s1.mono hsub).trans s2 (fun _ h => h)⟩
      · rw [← hd']; simp [hx]
      · show c1.size + _ = _
        rw [kk.1, List.length_append, hsize]
    -- the block becomes the last one
    have fin2 : ∀ {H1 : Heap} {c1 : Ch} {x : View}, Abs H1 c1 (ws ++ [x]) (id :: E) →
        x.data = l.data → Keep c c1 → Same H H1 (id :: E) →
        ∃ H' c', pushBackO H1 { c1 with size := c1.size + v.data.length } id own = some (H', c') ∧
          Rep H' c' (rest own [id] E) (d ++ v.data) ∧ Same H H' (rest own [id] E) := by
      intro H1 c1 x a1 hx kk s1
      have a1' : Abs H1 { c1 with size := c1.size + v.data.length } (ws ++ [x]) (id :: E) :=
        a1.ext rfl rfl rfl
      obtain ⟨H2, c2, k2, a2, kk2, s2⟩ := a1'.pushBackO (by rw [s1 id (by simp), hv]) own
      refine ⟨H2, c2, k2, Rep.ofBlocks a2 (by simp) ?_ ?_, (s1.mono hsub).trans s2 (fun _ h => h)⟩
      · rw [← hd']; simp [hx]
      · rw [kk2.1]
        show c1.size + _ = _
        rw [kk.1, List.length_append, hsize]
    rw [g2]
    simp only [g3, k1, Option.bind_some]
    cases ht : l.tiny && v.tiny with
    | true =>
      simp only [Bool.and_eq_true, view_tiny] at ht
      simp only [if_true]
      cases can with
      | true =>
        simp only [if_true]
        obtain ⟨H1, x, k2, a1, hx, s1⟩ := a.appendLast g2 k1
        simp only [k2, Option.bind_some]
        exact fin a1 hx (Keep.refl c) s1
      | false =>
        simp only [Bool.false_eq_true, if_false]
        rw [if_pos (by omega)]
        obtain ⟨cap, k2, q1, q2⟩ := newBlockCapacity_spec (c := c) (replaced := l.data.length)
          (minLen := v.data.length) (rec := 0) ho hvl (by omega)
        have hcap : cap ≠ 0 := by
          by_cases h0 : l.data.length + v.data.length = 0
          · have h1 : l.data.length = 0 := by omega
            have h2 : v.data.length = 0 := by omega
            rw [h1, h2] at k2
            exact newBlockCapacity_zero ho (hz (by simpa using h2)) k2
          · omega
        obtain ⟨H1, nb, H2, H3, c4, old, H5, x, m1, m2, m3, m4, m5, a5, hx, kk, s5⟩ :=
          a.mergeLast he (src := v.data) hcap q1 q2
        simp only [k2, m1, m2, m3, m4, m5, Option.bind_some]
        exact fin a5 hx kk s5
    | false =>
      simp only [Bool.false_eq_true, if_false]
      cases hle : l.empty with
      | true =>
        simp only [if_true]
        obtain ⟨H1, m1, a1, s1⟩ := a.refO own
        obtain ⟨c2, old, m2, a2, _, kk2, _, _⟩ := a1.setBack (w := v) (by rw [s1 id (by simp), hv])
        obtain ⟨H3, m3, a3, s3⟩ := a2.unref
        simp only [m1, m2, m3, Option.bind_some]
        have hl0 : l.data = [] := by simpa [View.empty] using hle
        refine ⟨_, _, rfl, Rep.ofBlocks (a3.ext rfl rfl rfl) (by simp) ?_ ?_, ?_⟩
        · rw [← hd']; simp [hl0]
        · show c2.size + _ = _
          rw [kk2.1, List.length_append, hsize]
        · exact (s1.mono (E := rest own [id] E) fun j hj => by
            have := hsub j hj; simp only [List.mem_append]; exact .inr this).trans s3 (fun _ h => h)
      | false =>
        have hl0 : l.data ≠ [] := by
          intro h; simp [View.empty, h] at hle
        simp only [Bool.false_eq_true, if_false]
        cases hw : l.wasteful with
        | true =>
          simp only [if_true]
          cases hc : can && decide (v.data.length ≤ allocationCost + l.data.length) with
          | true =>
            simp only [Bool.and_eq_true] at hc
            obtain ⟨rfl, _⟩ := hc
            simp only [if_true]
            obtain ⟨H1, x, k2, a1, hx, s1⟩ := a.appendLast g2 k1
            simp only [k2, Option.bind_some]
            exact fin a1 hx (Keep.refl c) s1
          | false =>
            simp only [Bool.false_eq_true, if_false]
            obtain ⟨H1, nb, c2, old, H3, x, m1, m2, m3, a3, hx, kk, s3⟩ := a.copyLast he g2 hl0
            simp only [m1, m2, m3, Option.bind_some]
            exact fin2 a3 hx kk s3
        | false =>
          simp only [Bool.false_eq_true, if_false]
          exact fin2 a rfl (Keep.refl c) (Same.refl _ _)

/-- `Prepend(Block)`, `PrependRawBlock()`. -/
theorem prependRawBlock_spec {env : Env} (he : env.Ok) {H : Heap} {c : Ch} {E : List Nat} {d : Bytes}
    {o : Opts} (ho : o.Ok) {id : Nat} {v : View} (own : Ownership) (r : Rep H c (id :: E) d)
    (hv : view H id = some v) (hz : v.data = [] → zeroOk c o)
    (hsz : d.length + v.data.length ≤ maxSize) :
    ∃ H' c', prependRawBlock env H c id own o = some (H', c') ∧
      Rep H' c' (rest own [id] E) (v.data ++ d) ∧ Same H H' (rest own [id] E) := by
  have hsize := r.size
  have hms : maxShort = 16 := rfl
  have hmc : maxCap = 2 ^ 63 - 1 := rfl
  have hmz : maxSize = 2 ^ 64 - 1 := rfl
  have hmb : minBlock = 512 := rfl
  obtain ⟨vs, a, w, hd⟩ := r
  have hvle := (a.good.view_le (id := id) (by simp) hv).1
  have hsub : ∀ j, j ∈ rest own [id] E → j ∈ id :: E := fun j hj => by simpa using rest_subset hj
  unfold prependRawBlock
  simp only [hv, Option.bind_eq_bind, Option.bind_some]
  rw [if_neg (by omega)]
  cases vs with
  | nil =>
    have : front c = none := by simp [front, a.nil_iff.2 rfl]
    rw [this]
    have hcl := content_length a w
    have h16 := short16_some a w
    have hsd := shortData_some a w
    rw [← content_nil] at hsd
    simp only [hsd, h16, Option.bind_some]
    have w1 := (w.nil rfl).1
    cases hde : (content c []).isEmpty with
    | true =>
      simp only [if_true]
      have hd0 : content c [] = [] := List.isEmpty_iff.1 hde
      have a0 : Abs H { c with size := c.size + v.data.length } [] (id :: E) := a.ext rfl rfl rfl
      obtain ⟨H', c', k1, a1, kk, s1⟩ := a0.pushFrontO hv own
      refine ⟨H', c', k1, Rep.ofBlocks a1 (by simp) ?_ ?_, s1⟩
      · rw [← hd, hd0]; simp
      · rw [kk.1, List.length_append, hsize]; exact Nat.add_comm _ _
    | false =>
      simp only [Bool.false_eq_true, if_false]
      cases ht : v.tiny with
      | true =>
        have ht' := view_tiny.1 ht
        have hpos : c.size ≠ 0 := by
          intro h0
          rw [h0] at hcl
          have : content c [] = [] := List.eq_nil_of_length_eq_zero hcl
          rw [this] at hde; cases hde
        simp only [if_true]
        rw [if_pos (by omega)]
        obtain ⟨cap, k0, q1, q2⟩ := newBlockCapacity_spec (c := c) (replaced := c.size)
          (minLen := v.data.length) (rec := 0) ho (by omega) (by omega)
        obtain ⟨H1, b, k1, _, f1⟩ := newInternal_fresh he a.good (n := cap) (by omega) q2
        obtain ⟨H2, k2, f2⟩ := f1.prepend (content c []) (by rw [hcl]; simp; omega)
        rw [List.append_nil] at f2
        obtain ⟨H3, k3, f3⟩ := f2.prepend v.data (by omega)
        obtain ⟨cap3, v3, _, _⟩ := f3.toFresh.view
        have a3 := a.fresh f3.toFresh
        obtain ⟨c4, k4, a4, kk4, _⟩ := a3.pushFront v3
        obtain ⟨H5, k5, a5, s5⟩ := a4.dropO own
        simp only [k0, k1, k2, k3, k4, k5, Option.bind_some]
        refine ⟨_, _, rfl, Rep.ofBlocks (a5.ext rfl rfl rfl) (by simp) ?_ ?_, ?_⟩
        · rw [← hd]; simp
        · show c4.size + _ = _
          rw [kk4.1, List.length_append, hsize]; omega
        · exact (f3.same.mono (E := rest own [id] E) fun j hj => by
            simp only [List.mem_append]; exact .inr (hsub j hj)).trans s5 (fun _ h => h)
      | false =>
        simp only [Bool.false_eq_true, if_false]
        obtain ⟨H1, b, H2, k1, k2, f2⟩ := a.shortBlock he w (cap := maxShort) (by omega) (by omega)
        obtain ⟨cap3, v3, _, _⟩ := f2.toFresh.view
        have a3 := a.fresh f2.toFresh
        obtain ⟨c4, k4, a4, kk4, _⟩ := a3.pushFront v3
        have hv4 : view H2 id = some v := by rw [f2.same id (by simp), hv]
        have a4' : Abs H2 { c4 with size := c4.size + v.data.length } ([_]) (id :: E) :=
          a4.ext rfl rfl rfl
        obtain ⟨H5, c5, k5, a5, kk5, s5⟩ := a4'.pushFrontO hv4 own
        simp only [k1, k2, k4, k5, Option.bind_some]
        refine ⟨_, _, rfl, Rep.ofBlocks a5 (by simp) ?_ ?_, ?_⟩
        · rw [← hd]; simp
        · rw [kk5.1]
          show c4.size + _ = _
          rw [kk4.1, List.length_append, hsize]; omega
        · exact (f2.same.mono (E := rest own [id] E) fun j hj => by
            simp only [List.mem_append]; exact .inr (hsub j hj)).trans s5 (fun _ h => h)
  | cons l ws =>
    obtain ⟨ids, b, g1, g2, g3, g4, g5, g6⟩ := a.first
    have hne : l :: ws ≠ [] := by simp
    have hd' : flat (l :: ws) = d := by
      unfold content at hd; rw [if_neg hne] at hd; exact hd
    have hsv : c.size = (flat (l :: ws)).length := w.cons hne
    have hvl : l.data.length ≤ c.size := by rw [hsv]; simp
    obtain ⟨can, k1⟩ := canPrepend_some a.good (id := b) (by simp [g1]) v.data.length
    -- the data of the block were appended to the last block
    have fin : ∀ {H1 : Heap} {c1 : Ch} {x : View}, Abs H1 c1 (x :: ws) (id :: E) →
        x.data = v.data ++ l.data → Keep c c1 → Same H H1 (id :: E) →
        ∃ H' c', (unrefO H1 id own).bind (fun H =>
            some (H, { c1 with size := c1.size + v.data.length })) = some (H', c') ∧
          Rep H' c' (rest own [id] E) (v.data ++ d) ∧ Same H H' (rest own [id] E) := by
      intro H1 c1 x a1 hx kk s1
      obtain ⟨H2, k2, a2, s2⟩ := a1.dropO own
      refine ⟨H2, { c1 with size := c1.size + v.data.length },
        by simp only [k2, Option.bind_some], Rep.ofBlocks (a2.ext rfl rfl rfl) (by simp) ?_ ?_,
        (s1.mono hsub).trans s2 (fun _ h => h)⟩
      · rw [← hd']; simp [hx]
      · show c1.size + _ = _
        rw [kk.1, List.length_append, hsize]; omega
    -- the block becomes the last one
    have fin2 : ∀ {H1 : Heap} {c1 : Ch} {x : View}, Abs H1 c1 (x :: ws) (id :: E) →
        x.data = l.data → Keep c c1 → Same H H1 (id :: E) →
        ∃ H' c', pushFrontO H1 { c1 with size := c1.size + v.data.length } id own = some (H', c') ∧
          Rep H' c' (rest own [id] E) (v.data ++ d) ∧ Same H H' (rest own [id] E) := by
      intro H1 c1 x a1 hx kk s1
      have a1' : Abs H1 { c1 with size := c1.size + v.data.length } (x :: ws) (id :: E) :=
        a1.ext rfl rfl rfl
      obtain ⟨H2, c2, k2, a2, kk2, s2⟩ := a1'.pushFrontO (by rw [s1 id (by simp), hv]) own
      refine ⟨H2, c2, k2, Rep.ofBlocks a2 (by simp) ?_ ?_, (s1.mono hsub).trans s2 (fun _ h => h)⟩
      · rw [← hd']; simp [hx]
      · rw [kk2.1]
        show c1.size + _ = _
        rw [kk.1, List.length_append, hsize]; omega
    rw [g2]
    simp only [g3, k1, Option.bind_some]
    cases ht : l.tiny && v.tiny with
    | true =>
      simp only [Bool.and_eq_true, view_tiny] at ht
      simp only [if_true]
      cases can with
      | true =>
        simp only [if_true]
        obtain ⟨H1, c1, x, k2, k3, a1, hx, kk1, s1⟩ := a.prependFirst g2 k1
        simp only [k2, k3, Option.bind_some]
        exact fin a1 hx kk1 s1
      | false =>
        simp only [Bool.false_eq_true, if_false]
        rw [if_pos (by omega)]
        obtain ⟨cap, k2, q1, q2⟩ := newBlockCapacity_spec (c := c) (replaced := l.data.length)
          (minLen := v.data.length) (rec := 0) ho hvl (by omega)
        have hcap : cap ≠ 0 := by
          by_cases h0 : l.data.length + v.data.length = 0
          · have h1 : l.data.length = 0 := by omega
            have h2 : v.data.length = 0 := by omega
            rw [h1, h2] at k2
            exact newBlockCapacity_zero ho (hz (by simpa using h2)) k2
          · omega
        obtain ⟨H1, nb, H2, H3, c4, old, H5, x, m1, m2, m3, m4, m5, a5, hx, kk, s5⟩ :=
          a.mergeFirst he (src := v.data) hcap q1 q2
        simp only [k2, m1, m2, m3, m4, m5, Option.bind_some]
        exact fin a5 hx kk s5
    | false =>
      simp only [Bool.false_eq_true, if_false]
      cases hle : l.empty with
      | true =>
        simp only [if_true]
        obtain ⟨H1, m1, a1, s1⟩ := a.refO own
        obtain ⟨c2, old, m2, a2, _, kk2, _, _⟩ := a1.setFront (w := v) (by rw [s1 id (by simp), hv])
        obtain ⟨H3, m3, a3, s3⟩ := a2.unref
        simp only [m1, m2, m3, Option.bind_some]
        have hl0 : l.data = [] := by simpa [View.empty] using hle
        refine ⟨_, _, rfl, Rep.ofBlocks (a3.ext rfl rfl rfl) (by simp) ?_ ?_, ?_⟩
        · rw [← hd']; simp [hl0]
        · show c2.size + _ = _
          rw [kk2.1, List.length_append, hsize]; omega
        · exact (s1.mono (E := rest own [id] E) fun j hj => by
            have := hsub j hj; simp only [List.mem_append]; exact .inr this).trans s3 (fun _ h => h)
      | false =>
        have hl0 : l.data ≠ [] := by
          intro h; simp [View.empty, h] at hle
        simp only [Bool.false_eq_true, if_false]
        cases hw : l.wasteful with
        | true =>
          simp only [if_true]
          cases hc : can && decide (v.data.length ≤ allocationCost + l.data.length) with
          | true =>
            simp only [Bool.and_eq_true] at hc
            obtain ⟨rfl, _⟩ := hc
            simp only [if_true]
            obtain ⟨H1, c1, x, k2, k3, a1, hx, kk1, s1⟩ := a.prependFirst g2 k1
            simp only [k2, k3, Option.bind_some]
            exact fin a1 hx kk1 s1
          | false =>
            simp only [Bool.false_eq_true, if_false]
            obtain ⟨H1, nb, c2, old, H3, x, m1, m2, m3, a3, hx, kk, s3⟩ := a.copyFirst he g2 hl0
            simp only [m1, m2, m3, Option.bind_some]
            exact fin2 a3 hx kk s3
        | false =>
          simp only [Bool.false_eq_true, if_false]
          exact fin2 a rfl (Keep.refl c) (Same.refl _ _)

end Riegeli.Chn

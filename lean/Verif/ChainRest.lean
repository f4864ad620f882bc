import Verif.ChainRemove
/-!
# Chain: making, assigning, clearing and reading
-/
namespace Riegeli.Chn

theorem offsFrom_take (b : Nat) (vs : List View) (n : Nat) :
    (offsFrom b vs).take n = offsFrom b (vs.take n) := by
  induction vs generalizing b n with
  | nil => simp [offsFrom]
  | cons v vs ih =>
    cases n with
    | zero => rfl
    | succ n => simp [offsFrom, ih]

theorem ArrOk.take {a : Option Arr} {vs : List View} (h : ArrOk a vs) (n k : Nat) :
    ArrOk (a.map fun a => ⟨a.before, a.after + k, a.offs.take n⟩) (vs.take n) := by
  cases a with
  | none => simp only [ArrOk, Option.map_none] at h ⊢; simp; omega
  | some a =>
    simp only [ArrOk, Option.map_some] at h ⊢
    obtain ⟨b, hb⟩ := h
    exact ⟨b, by rw [hb, offsFrom_take]⟩

/-- There is a place for a block pointer, as needed when a block is stored without
making space for it first. -/
def HasRoom (c : Ch) : Prop := c.blocks = [] → ∀ a, c.arr = some a → a.after ≠ 0

/-- A chain which is not empty has it. -/
theorem Rep.hasRoom {H : Heap} {c : Ch} {E : List Nat} {d : Bytes} (r : Rep H c E d) (hd : d ≠ []) :
    HasRoom c := by
  intro hb a ha
  obtain ⟨vs, ab, w, hc⟩ := r
  have hv := ab.nil_iff.1 hb
  subst hv
  have := (w.nil rfl).2 (by simp [ha])
  rw [content_nil, this] at hc
  exact absurd hc.symm hd

/-- All blocks were dropped. -/
theorem Abs.dropAll {H : Heap} {c : Ch} {vs : List View} {E : List Nat} (a : Abs H c vs E) :
    ∃ H', Chn.unrefAll H c.blocks = some H' ∧ Abs H' (truncate c 0) [] E ∧ Same H H' E := by
  obtain ⟨H', h1, g1, s1⟩ := Abs.unrefAll c.blocks a.good
  refine ⟨H', h1, ⟨by simpa [truncate] using g1, by simp [truncate], ?_, a.short⟩, s1⟩
  have := a.arr.take 0 (c.blocks.length - 0)
  simpa [truncate] using this

theorem truncate_room {c : Ch} (h : HasRoom c) : HasRoom (truncate c 0) := by
  intro _ a ha
  cases hc : c.arr with
  | none => simp [truncate, hc] at ha
  | some x =>
    simp only [truncate, hc, Option.map_some, Option.some.injEq] at ha
    subst ha
    simp only
    by_cases hb : c.blocks = []
    · have := h hb x hc; omega
    · have := List.length_pos_iff.2 hb; omega

/-! ### `Clear()` -/

theorem clearSlow_spec {H : Heap} {c : Ch} {v : View} {vs : List View} {E : List Nat}
    (a : Abs H c (v :: vs) E) :
    ∃ H' c' remains, clearSlow H c = some (H', c', remains) ∧ Keep c c' ∧ Same H H' E ∧
      (remains = true → ∃ w, w.data = [] ∧ Abs H' c' [w] E) ∧
      (remains = false → Abs H' c' [] E ∧ HasRoom c') := by
  obtain ⟨ids, f, h1, h2, h3, h4, h5, h6⟩ := a.first
  obtain ⟨H1, b, t1, g1, s1, tt, tf⟩ := tryClear_spec h5 h3
  cases b with
  | true =>
    have hw := tt rfl
    obtain ⟨H2, u1, g2, s2⟩ := Abs.unrefAll ids (E := f :: E) (g1.congr fun x => by
      simp [List.count_cons]; omega)
    refine ⟨H2, truncate c 1, true, ?_, ⟨rfl, rfl⟩, ?_, fun _ => ⟨⟨[], v.cap⟩, rfl, ?_, ?_, ?_, a.short⟩,
      fun h => by simp at h⟩
    · unfold clearSlow
      simp only [h2, t1, Option.bind_eq_bind, Option.bind_some, h1, if_true, List.drop_succ_cons,
        List.drop_zero, u1]
    · exact (s1.mono (E := E) fun j hj => by simp [hj]).trans
        (s2.mono (E := E) fun j hj => by simp [hj]) (fun _ h => h)
    · simpa [truncate, h1] using g2
    · have : view H2 f = view H1 f := s2 f (by simp)
      simp [truncate, h1, this, hw]
    · cases ha : c.arr with
      | none => simp [truncate, ha, ArrOk]
      | some x =>
        have h7 := a.arr
        rw [ha] at h7
        simp only [ArrOk] at h7
        obtain ⟨b, hb⟩ := h7
        simp only [truncate, ha, Option.map_some, ArrOk]
        exact ⟨b, by rw [hb]; simp [offsFrom]⟩
  | false =>
    have hw := tf rfl
    subst hw
    obtain ⟨H2, u1, a2, s2⟩ := a.dropAll
    refine ⟨H2, truncate c 0, false, ?_, ⟨rfl, rfl⟩, s2, fun h => by simp at h,
      fun _ => ⟨a2, truncate_room fun h => absurd h h6⟩⟩
    unfold clearSlow
    simp only [h2, t1, Option.bind_eq_bind, Option.bind_some, if_false, List.drop_zero, u1,
      Bool.false_eq_true]

theorem Abs.resize {H : Heap} {c : Ch} {vs : List View} {E : List Nat} (a : Abs H c vs E) (n : Nat) :
    Abs H { c with size := n } vs E := a.ext rfl rfl rfl

theorem clear_spec {H : Heap} {c : Ch} {E : List Nat} {d : Bytes} (r : Rep H c E d) :
    ∃ H' c', clear H c = some (H', c') ∧ Rep H' c' E [] ∧ Same H H' E := by
  obtain ⟨vs, a, w, hd⟩ := r
  unfold clear
  by_cases hb : c.blocks = []
  · rw [if_pos hb]
    have hv := a.nil_iff.1 hb
    subst hv
    exact ⟨H, _, rfl, Rep.ofFlat (a.resize 0) rfl rfl, Same.refl _ _⟩
  · rw [if_neg hb]
    cases vs with
    | nil => exact absurd (a.nil_iff.2 rfl) hb
    | cons v vs =>
      obtain ⟨H', c', rem, h1, k1, s1, ht, hf⟩ := clearSlow_spec (a.resize 0)
      refine ⟨H', c', by simp only [h1, Option.bind_eq_bind, Option.bind_some], ?_, s1⟩
      have hs : c'.size = 0 := k1.1
      cases rem with
      | true =>
        obtain ⟨w, hw, aw⟩ := ht rfl
        exact Rep.ofFlat aw (by simp [hw]) (by simp [hs])
      | false => exact Rep.ofFlat (hf rfl).1 rfl (by simp [hs])

theorem hint_ok (n : Nat) : ({ hint := some n } : Opts).Ok :=
  ⟨by show 0 < maxBlock; decide, by show maxBlock < 2 ^ 32; decide, by show minBlock < 2 ^ 32; decide⟩

/-! ### Making a chain from one block, or from bytes -/

theorem initBlock_spec {env : Env} {H : Heap} {c : Ch} {b : Nat} {v : View} {E : List Nat}
    (a : Abs H c [] (b :: E)) (hr : HasRoom c) (hv : view H b = some v) :
    ∃ c', initBlock env H c b = some c' ∧ Rep H c' E v.data := by
  have hb := a.nil_iff.2 rfl
  have hs : sizeOf H b = some v.data.length := by simp [sizeOf, hv]
  have hg : Good H (b :: E) := by simpa [hb] using a.good
  unfold initBlock
  cases ha : c.arr with
  | none =>
    simp only [hb, hs, Option.bind_eq_bind, Option.bind_some]
    refine ⟨_, rfl, Rep.ofBlocks (vs := [v]) ⟨by simpa using hg, by simp [hv], ?_, a.short⟩ (by simp)
      (by simp) rfl⟩
    simp [ArrOk]
  | some x =>
    have h0 := hr hb x ha
    simp only [hb, hs, Option.bind_eq_bind, Option.bind_some, if_neg h0]
    refine ⟨_, rfl, Rep.ofBlocks (vs := [v]) ⟨by simpa using hg, by simp [hv], ?_, a.short⟩ (by simp)
      (by simp) rfl⟩
    exact ⟨env.off b, by simp [offsFrom, wrap]⟩

theorem initBytes_spec {env : Env} (he : env.Ok) {H : Heap} {c : Ch} {E : List Nat} {src : Bytes}
    (a : Abs H c [] E) (h0 : c.size = 0) (hr : HasRoom c) (hm : src.length ≤ maxSize) :
    ∃ H' c', initBytes env H c src = some (H', c') ∧ Rep H' c' E src ∧ Same H H' E := by
  have hb := a.nil_iff.2 rfl
  unfold initBytes
  rw [if_neg (by omega)]
  by_cases hs : src = []
  · rw [if_pos hs]
    subst hs
    exact ⟨H, c, rfl, Rep.ofFlat a rfl h0, Same.refl _ _⟩
  rw [if_neg hs]
  by_cases hl : src.length ≤ maxShort
  · rw [if_pos hl]
    have hsh := a.short
    obtain ⟨hw1, hw2⟩ := writeMem_some (mem := c.short) (bs := src) (off := 0) (by omega)
    simp only [ensureHasHere, if_pos hb, Option.bind_eq_bind, Option.bind_some, hw1]
    refine ⟨H, _, rfl, Rep.ofShort ?_ hl (fun h => absurd rfl h) ?_, Same.refl _ _⟩
    · refine ⟨?_, ?_, ?_, ?_⟩
      · simpa using a.good
      · simpa [hb]
      · simp [ArrOk]
      · rw [← hsh]; exact hw2
    · simp
  · rw [if_neg hl]
    have hlen : maxShort < src.length := by omega
    have hcap : min src.length maxBlock ≠ 0 := by unfold maxBlock; unfold maxShort at hlen; omega
    obtain ⟨H1, b, n1, f1, _⟩ := newInternal_fresh he a.good hcap
      (by unfold maxBlock maxCap; omega)
    obtain ⟨mem, m1, m2, m3, m4⟩ := f1.blk
    obtain ⟨H2, n, b1, b2, b3, b4, b5, b6, b7, b8⟩ := blkAppendBuffer_spec f1.good m1 src.length
    have hn : n ≤ src.length := by rw [b2]; omega
    obtain ⟨H3, c1, c2, c3, c4, c5, c6⟩ := fillSpan_after (len := 0) (bs := src.take n) b3
      (by simpa using b5) (by simp; omega)
    simp only [n1, b1, Option.bind_eq_bind, Option.bind_some]
    simp only [List.length_nil, if_true, Nat.add_zero] at c1 ⊢
    simp only [c1, Option.bind_some]
    have a3 : Abs H3 c [] (b :: E) := by
      refine ⟨by simpa [hb] using c2, by simp [hb], a.arr, a.short⟩
    obtain ⟨c', i1, i2⟩ := initBlock_spec (env := env) a3 hr c4
    simp only [i1, Option.bind_some]
    obtain ⟨H4, c4', e1, e2, e3⟩ := appendBytes_spec (o := { hint := some src.length }) he
      (hint_ok _) (src := src.drop n) i2 (by simp [slice]; omega)
    refine ⟨H4, c4', e1, ?_, ?_⟩
    · have : slice mem 0 0 ++ src.take n ++ src.drop n = src := by simp [slice]
      simpa [this] using e2
    · have hsub : ∀ j, j ∈ E → j ∈ c.blocks ++ E := fun j hj => by simp [hj]
      exact (((f1.same.mono hsub).trans (b4.mono hsub) (fun _ h => h)).trans (c3.mono hsub)
        (fun _ h => h)).trans e3 (fun _ h => h)

theorem resetBytes_spec {env : Env} (he : env.Ok) {H : Heap} {c : Ch} {E : List Nat} {d src : Bytes}
    (r : Rep H c E d) (hr : HasRoom c) (hm : src.length ≤ maxSize) :
    ∃ H' c', resetBytes env H c src = some (H', c') ∧ Rep H' c' E src ∧ Same H H' E := by
  obtain ⟨vs, a, w, hd⟩ := r
  unfold resetBytes
  by_cases hb : c.blocks = []
  · simp only [hb, if_true]
    have hv := a.nil_iff.1 hb
    subst hv
    have a0 : Abs H { c with size := 0 } [] E := a.resize 0
    have := initBytes_spec he a0 rfl (by intro h; exact hr hb) hm
    simpa [hb] using this
  · simp only [hb, if_false]
    cases vs with
    | nil => exact absurd (a.nil_iff.2 rfl) hb
    | cons v vs =>
      obtain ⟨H1, c1, rem, h1, k1, s1, ht, hf⟩ := clearSlow_spec (a.resize 0)
      have hs : c1.size = 0 := k1.1
      simp only [h1, Option.bind_eq_bind, Option.bind_some]
      cases rem with
      | true =>
        obtain ⟨w, hw, aw⟩ := ht rfl
        simp only [if_true]
        obtain ⟨H2, c2, e1, e2, e3⟩ := appendBytes_spec (o := { hint := some src.length }) he
          (hint_ok _) (src := src) (Rep.ofFlat aw (d := []) (by simp [hw])
            (by simp [hs])) (by simpa using hm)
        exact ⟨H2, c2, e1, e2, s1.trans e3 (fun _ h => h)⟩
      | false =>
        obtain ⟨af, rf⟩ := hf rfl
        simp only [Bool.false_eq_true, if_false]
        obtain ⟨H2, c2, e1, e2, e3⟩ := initBytes_spec he af hs rf hm
        exact ⟨H2, c2, e1, e2, s1.trans e3 (fun _ h => h)⟩

theorem resetBlock_spec {env : Env} {H : Heap} {c : Ch} {b : Nat} {v : View} {E : List Nat}
    {d : Bytes} (r : Rep H c (b :: E) d) (hr : HasRoom c) (hv : view H b = some v) :
    ∃ H' c', resetBlock env H c b = some (H', c') ∧ Rep H' c' E v.data ∧ Same H H' E := by
  obtain ⟨vs, a, w, hd⟩ := r
  obtain ⟨H1, h1, a1, s1⟩ := a.dropAll
  have hv1 : view H1 b = some v := by rw [s1 b (by simp), hv]
  obtain ⟨c', i1, i2⟩ := initBlock_spec (env := env) (a1.resize 0) (truncate_room hr) hv1
  refine ⟨H1, c', ?_, i2, s1.mono fun j hj => by simp [hj]⟩
  unfold resetBlock
  simp only [h1, i1, Option.bind_eq_bind, Option.bind_some]

/-! ### Copying and moving -/

/-- A chain which was just made. -/
theorem Rep.empty {H : Heap} {E : List Nat} (g : Good H E) : Rep H {} E [] :=
  Rep.ofShort ⟨by simpa using g, rfl, by simp [ArrOk], by decide⟩ (Nat.zero_le _)
    (fun _ => rfl) rfl

theorem initChain_spec {H : Heap} {c src : Ch} {E : List Nat} {ds : Bytes}
    (a : Abs H (truncate c 0) [] (src.blocks ++ E))
    (rs : Rep H src E ds) :
    ∃ H' c', initChain H c src = some (H', c') ∧ Rep H' c' (src.blocks ++ E) ds ∧
      Same H H' (src.blocks ++ E) := by
  obtain ⟨vs, as, w, hd⟩ := rs
  unfold initChain
  by_cases hb : src.blocks = []
  · simp only [hb, if_true]
    have hv := as.nil_iff.1 hb
    subst hv
    have hsh : c.short.length = maxShort := a.short
    have hsh' := as.short
    obtain ⟨hw1, hw2⟩ := writeMem_some (mem := c.short) (bs := src.short) (off := 0) (by omega)
    have e1 : ensureHasHere ⟨(truncate c 0).blocks, (truncate c 0).short, src.size,
        (truncate c 0).arr⟩ = some ⟨[], c.short, src.size, none⟩ := by
      simp [ensureHasHere, truncate]
    simp only [e1, short16_some as w, Option.bind_eq_bind, Option.bind_some, hw1]
    refine ⟨H, _, rfl, Rep.ofShort ?_ (w.nil rfl).1 (fun h => absurd rfl h) ?_, Same.refl _ _⟩
    · refine ⟨?_, ?_, ?_, ?_⟩
      · have := a.good; simpa [truncate, hb] using this
      · rfl
      · simp [ArrOk]
      · rw [← hsh]; exact hw2
    · rw [← hd, content_nil]
      have : c.short.drop (0 + src.short.length) = [] := by
        apply List.drop_eq_nil_of_le; omega
      simp [List.take_append, this]
      omega
  · simp only [hb, if_false]
    have a0 : Abs H { truncate c 0 with size := src.size } [] (src.blocks ++ E) := by
      exact a.ext rfl rfl rfl
    obtain ⟨H', c', e1, e2, e3, e4⟩ := a0.appendBlocks (own := .share) as.views
    refine ⟨H', c', e1, ?_, by simpa [rest] using e4⟩
    have hne : vs ≠ [] := fun h => hb (as.nil_iff.2 h)
    refine Rep.ofBlocks (vs := vs) (by simpa [rest] using e2) hne ?_ ?_
    · rw [← hd]; simp [content, hne]
    · rw [e3.1, ← hd]; simp [content, hne, w.cons hne]

theorem Rep.shared {H H' : Heap} {c' src : Ch} {E : List Nat} {d' ds : Bytes}
    (rs : Rep H src E ds) (r' : Rep H' c' (src.blocks ++ E) d') (s : Same H H' (src.blocks ++ E)) :
    Rep H' src (c'.blocks ++ E) ds := by
  obtain ⟨vs', a', _, _⟩ := r'
  exact rs.heap (a'.good.congr fun x => by simp; omega) (s.mono fun j hj => by simp [hj])

theorem copyChain_spec {H : Heap} {src : Ch} {E : List Nat} {ds : Bytes} (rs : Rep H src E ds) :
    ∃ H' c', copyChain H src = some (H', c') ∧ Rep H' c' (src.blocks ++ E) ds ∧
      Rep H' src (c'.blocks ++ E) ds ∧ Same H H' (src.blocks ++ E) := by
  obtain ⟨vs, as, w, hd⟩ := id rs
  have a0 : Abs H (truncate {} 0) [] (src.blocks ++ E) :=
    ⟨by simpa [truncate] using as.good, by simp [truncate], by simp [truncate, ArrOk], by decide⟩
  obtain ⟨H', c', h1, h2, h3⟩ := initChain_spec a0 rs
  exact ⟨H', c', h1, h2, rs.shared h2 h3, h3⟩

theorem assignChain_spec {H : Heap} {c src : Ch} {E : List Nat} {d ds : Bytes}
    (r : Rep H c (src.blocks ++ E) d) (rs : Rep H src (c.blocks ++ E) ds) :
    ∃ H' c', assignChain H c src = some (H', c') ∧ Rep H' c' (src.blocks ++ E) ds ∧
      Rep H' src (c'.blocks ++ E) ds ∧ Same H H' (src.blocks ++ E) := by
  obtain ⟨vs, a, w, hd⟩ := r
  obtain ⟨H1, h1, a1, s1⟩ := a.dropAll
  have r1 : Rep H1 src E ds :=
    rs.heap (by simpa [truncate] using a1.good) (s1.mono fun j hj => by simp [hj])
  obtain ⟨H', c', h2, h3, h4⟩ := initChain_spec a1 r1
  refine ⟨H', c', ?_, h3, r1.shared h3 h4, s1.trans h4 (fun _ h => h)⟩
  unfold assignChain
  simp only [h1, h2, Option.bind_eq_bind, Option.bind_some]

theorem moveChain_spec {H : Heap} {src : Ch} {E : List Nat} {ds : Bytes} (rs : Rep H src E ds) :
    Rep H (moveChain src).1 ((moveChain src).2.blocks ++ E) ds ∧
      Rep H (moveChain src).2 ((moveChain src).1.blocks ++ E) [] := by
  refine ⟨by simpa [moveChain] using rs, ?_⟩
  obtain ⟨vs, a, w, hd⟩ := rs
  exact Rep.ofShort ⟨by simpa [moveChain] using a.good, by simp [moveChain], by simp [moveChain, ArrOk],
    a.short⟩ (Nat.zero_le _) (fun _ => rfl) rfl

theorem moveAssign_spec {H : Heap} {c src : Ch} {E : List Nat} {d ds : Bytes}
    (r : Rep H c (src.blocks ++ E) d) (rs : Rep H src (c.blocks ++ E) ds) :
    ∃ H' c' src', moveAssign H c src = some (H', c', src') ∧ Rep H' c' (src'.blocks ++ E) ds ∧
      Rep H' src' (c'.blocks ++ E) [] ∧ Same H H' (src.blocks ++ E) := by
  obtain ⟨vs, a, w, hd⟩ := r
  obtain ⟨H1, h1, a1, s1⟩ := a.dropAll
  have r1 : Rep H1 src E ds :=
    rs.heap (by simpa [truncate] using a1.good) (s1.mono fun j hj => by simp [hj])
  obtain ⟨m1, m2⟩ := moveChain_spec r1
  refine ⟨H1, _, _, ?_, m1, m2, s1⟩
  unfold moveAssign
  simp only [h1, Option.bind_eq_bind, Option.bind_some]

theorem destroyChain_spec {H : Heap} {c : Ch} {E : List Nat} {d : Bytes} (r : Rep H c E d) :
    ∃ H', destroyChain H c = some H' ∧ Good H' E ∧ Same H H' E := by
  obtain ⟨vs, a, w, hd⟩ := r
  exact Abs.unrefAll c.blocks a.good

/-! ### Reading -/

theorem mapM_views {H : Heap} : ∀ {ids : List Nat} {vs : List View},
    ids.map (view H) = vs.map some →
    ids.mapM (fun id => (view H id).map (·.data)) = some (vs.map (·.data))
  | [], [], _ => rfl
  | [], _ :: _, h => by simp at h
  | _ :: _, [], h => by simp at h
  | i :: ids, v :: vs, h => by
    simp only [List.map_cons, List.cons.injEq] at h
    have := mapM_views h.2
    simp [List.mapM_cons, h.1, this]

theorem flatten_data (vs : List View) : (vs.map (·.data)).flatten = flat vs := by
  simp [flat, List.flatMap_def]

theorem fragments_spec {H : Heap} {c : Ch} {E : List Nat} {d : Bytes} (r : Rep H c E d) :
    ∃ fs, fragments H c = some fs ∧ fs.flatten = d := by
  obtain ⟨vs, a, w, hd⟩ := r
  unfold fragments
  by_cases hb : c.blocks = []
  · have hv := a.nil_iff.1 hb
    subst hv
    rw [if_pos hb, shortData_some a w]
    rw [content_nil] at hd
    refine ⟨_, rfl, ?_⟩
    rw [← hd]
    split
    · rename_i h0; simp [h0]
    · simp
  · rw [if_neg hb, mapM_views a.views]
    have hne : vs ≠ [] := fun h => hb (a.nil_iff.2 h)
    refine ⟨_, rfl, ?_⟩
    rw [flatten_data, ← hd]
    simp [content, hne]

theorem copyTo_spec {H : Heap} {c : Ch} {E : List Nat} {d : Bytes} (r : Rep H c E d) :
    copyTo H c = some d := by
  obtain ⟨fs, h1, h2⟩ := fragments_spec r
  simp [copyTo, h1, h2]

/-! ### `Flatten()` -/

theorem FreshA.appendAll {H : Heap} {hs : List Nat} {b n : Nat} : ∀ (ds : List Bytes) {H' : Heap}
    {d : Bytes}, FreshA H hs H' b d n → d.length + ds.flatten.length ≤ n →
    ∃ H'', ds.foldlM (fun H d => blkAppend H b d) H' = some H'' ∧
      FreshA H hs H'' b (d ++ ds.flatten) n
  | [], H', d, f, _ => ⟨H', rfl, by simpa using f⟩
  | x :: ds, H', d, f, h => by
    simp only [List.flatten_cons, List.length_append] at h
    obtain ⟨H1, h1, f1⟩ := f.append x (by omega)
    obtain ⟨H2, h2, f2⟩ := appendAll ds f1 (by simp only [List.length_append]; omega)
    refine ⟨H2, ?_, by simpa using f2⟩
    simp only [List.foldlM_cons, h1, Option.bind_eq_bind, Option.bind_some]
    exact h2

theorem onlyBlock_spec {H : Heap} {c : Ch} {vs : List View} {E : List Nat} {d : Bytes}
    (a : Abs H c vs E) (h1 : vs.length = 1) (hd : flat vs = d) (hs : c.size = d.length) :
    ∃ H' c', onlyBlock H c = some (H', c', d) ∧ Rep H' c' E d ∧ Same H H' E := by
  match vs, h1 with
  | [v], _ =>
    obtain ⟨ids, f, e1, e2, e3, e4, e5, e6⟩ := a.first
    refine ⟨H, c, ?_, Rep.ofFlat a hd hs, Same.refl _ _⟩
    unfold onlyBlock
    simp only [e2, e3, Option.bind_eq_bind, Option.bind_some]
    rw [← hd]
    simp

theorem flattenCopy_spec {env : Env} (he : env.Ok) {H : Heap} {c : Ch} {vs : List View} {E : List Nat}
    {d : Bytes} (a : Abs H c vs E) (hd : flat vs = d) (hs : c.size = d.length)
    (hm : d.length ≤ maxCap) :
    ∃ H' c', flattenCopy env H c = some (H', c', d) ∧ Rep H' c' E d ∧ Same H H' E := by
  obtain ⟨cap, k1, k2, k3⟩ := newBlockCapacity_spec (c := c) (replaced := 0) (minLen := c.size)
    (rec := c.size) (o := {}) Opts.default_ok (by omega) (by omega)
  have k0 : cap ≠ 0 := by
    have hz : newBlockCapacity c 0 c.size c.size {} = some cap := k1
    unfold newBlockCapacity at hz
    rw [if_pos ⟨by omega, by omega⟩] at hz
    have hx : minBlock = 512 := rfl
    have hy : maxBlock = 65536 := rfl
    simp only [Nat.sub_zero, Nat.zero_add, Option.some.injEq] at hz
    omega
  obtain ⟨H1, b, n1, f1, _⟩ := newInternal_fresh he a.good k0 k3
  have a1 := a.fresh f1.toFresh
  obtain ⟨H2, n2, f2⟩ := FreshA.appendAll (vs.map (·.data)) f1 (by
    rw [flatten_data, hd]; simp; omega)
  rw [flatten_data, hd, List.nil_append] at f2
  have a2 := a.fresh f2.toFresh
  obtain ⟨capb, hv2, _, _⟩ := f2.toFresh.view
  obtain ⟨H3, u1, a3, s3⟩ := a2.dropAll
  have hv3 : view H3 b = some ⟨d, some capb⟩ := by rw [s3 b (by simp), hv2]
  obtain ⟨c4, p1, a4, kp, e4⟩ := a3.pushBack hv3
  refine ⟨H3, c4, ?_, ?_, ?_⟩
  · unfold flattenCopy
    simp only [k1, n1, mapM_views a1.views, n2, u1, p1, hv3, Option.bind_eq_bind, Option.bind_some]
  · refine Rep.ofFlat a4 (by simp) ?_
    rw [kp.1]; exact hs
  · exact (f2.same.mono (E := E) fun j hj => by simp [hj]).trans
      (s3.mono (E := E) fun j hj => by simp [hj]) (fun _ h => h)

theorem view_empty {v : View} : v.empty = true ↔ v.data = [] := by
  simp [View.empty]

theorem flattenBack_spec {env : Env} (he : env.Ok) {H : Heap} {c : Ch} {vs : List View} {E : List Nat}
    {d : Bytes} (a : Abs H c vs E) (hne : vs ≠ []) (hd : flat vs = d) (hs : c.size = d.length)
    (hm : d.length ≤ maxCap) :
    ∃ H' c', flattenBack env H c = some (H', c', d) ∧ Rep H' c' E d ∧ Same H H' E := by
  rcases List.eq_nil_or_concat vs with h | ⟨ws, v, h⟩
  · exact absurd h hne
  · rw [List.concat_eq_append] at h
    subst h
    obtain ⟨ids, l, h1, h2, h3, h4, h5, h6⟩ := a.last
    unfold flattenBack
    simp only [h2, h3, Option.bind_eq_bind, Option.bind_some]
    by_cases hv : v.empty = true
    · rw [if_pos hv]
      obtain ⟨c1, b, p1, a1, v1, k1, e1, e2, e3⟩ := a.popBack
      obtain ⟨H2, u1, a2, s2⟩ := a1.unref
      simp only [p1, u1, Option.bind_some]
      have hd1 : flat ws = d := by
        rw [← hd]; simp [view_empty.1 hv]
      have hs1 : c1.size = d.length := by rw [k1.1, hs]
      by_cases hl : c1.blocks.length = 1
      · rw [if_pos hl]
        obtain ⟨H', c', q1, q2, q3⟩ := onlyBlock_spec a2 (by rw [← a2.length, hl]) hd1 hs1
        exact ⟨H', c', q1, q2, s2.trans q3 (fun _ h => h)⟩
      · rw [if_neg hl]
        obtain ⟨H', c', q1, q2, q3⟩ := flattenCopy_spec he a2 hd1 hs1 hm
        exact ⟨H', c', q1, q2, s2.trans q3 (fun _ h => h)⟩
    · rw [if_neg hv]
      exact flattenCopy_spec he a hd hs hm

theorem flatten_spec {env : Env} (he : env.Ok) {H : Heap} {c : Ch} {E : List Nat} {d : Bytes}
    (r : Rep H c E d) (hm : d.length ≤ maxCap) :
    ∃ H' c', flatten env H c = some (H', c', d) ∧ Rep H' c' E d ∧ Same H H' E := by
  have hsz := r.size
  obtain ⟨vs, a, w, hd⟩ := id r
  unfold flatten
  match hb : c.blocks, vs with
  | [], _ =>
    have hv := a.nil_iff.1 hb
    subst hv
    rw [shortData_some a w, ← content_nil, hd]
    exact ⟨H, c, rfl, r, Same.refl _ _⟩
  | _ :: _, [] => have := a.nil_iff.2 rfl; simp [hb] at this
  | [x], v :: vs =>
    have hl := a.length
    rw [hb] at hl
    have hd' : flat (v :: vs) = d := by rw [← hd]; simp [content]
    exact onlyBlock_spec a (by simpa using hl.symm) hd' hsz.symm
  | x :: y :: zs, v :: vs =>
    have hl := a.length
    rw [hb] at hl
    have hd' : flat (v :: vs) = d := by rw [← hd]; simp [content]
    obtain ⟨ids, f, e1, e2, e3, e4, e5, e6⟩ := a.first
    rw [hb] at e1
    simp only [List.cons.injEq] at e1
    obtain ⟨rfl, _⟩ := e1
    simp only [e3, Option.bind_eq_bind, Option.bind_some]
    by_cases hv : v.empty = true
    · rw [if_pos hv]
      obtain ⟨c1, b, p1, a1, v1, k1, _, g2, g3⟩ := a.popFront
      obtain ⟨H2, u1, a2, s2⟩ := a1.unref
      simp only [p1, u1, Option.bind_some]
      have hd1 : flat vs = d := by
        rw [← hd']; simp [view_empty.1 hv]
      have hs1 : c1.size = d.length := by rw [k1.1, hsz]
      by_cases hl1 : c1.blocks.length = 1
      · rw [if_pos hl1]
        obtain ⟨H', c', q1, q2, q3⟩ := onlyBlock_spec a2 (by rw [← a2.length, hl1]) hd1 hs1
        exact ⟨H', c', q1, q2, s2.trans q3 (fun _ h => h)⟩
      · rw [if_neg hl1]
        have hne : vs ≠ [] := by intro h; subst h; simp at hl
        obtain ⟨H', c', q1, q2, q3⟩ := flattenBack_spec he a2 hne hd1 hs1 hm
        exact ⟨H', c', q1, q2, s2.trans q3 (fun _ h => h)⟩
    · rw [if_neg hv]
      exact flattenBack_spec he a (by simp) hd' hsz.symm hm

end Riegeli.Chn

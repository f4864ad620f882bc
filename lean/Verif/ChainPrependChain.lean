import Verif.ChainAppend
/-!
# Chain: prepending a chain
-/
namespace Riegeli.Chn

theorem prependMerge_spec {env : Env} (he : env.Ok) {H : Heap} {c : Ch} {vs : List View} {vl vf : View}
    {f : Nat} {F : List Nat} {o : Opts} (ho : o.Ok) (single : Bool)
    (a : Abs H c (vl :: vs) (f :: F)) (hvf : view H f = some vf)
    (hs : c.size = (flat (vl :: vs)).length) (hsum : vl.data.length + vf.data.length ≤ maxCap) :
    ∃ H' c' vs', prependMerge env H c f single o = some (H', c') ∧ Abs H' c' vs' (f :: F) ∧
      flat vs' = vf.data ++ flat (vl :: vs) ∧ Keep c c' ∧ Same H H' (f :: F) := by
  obtain ⟨ids, l, g1, g2, g3, g4, g5, g6⟩ := a.first
  obtain ⟨can, k1⟩ := canPrepend_some a.good (id := l) (by simp [g1]) vf.data.length
  have hvl : vl.data.length ≤ c.size := by rw [hs]; simp
  unfold prependMerge
  simp only [g2, g3, hvf, k1, Option.bind_eq_bind, Option.bind_some]
  cases he0 : vf.empty && vl.empty with
  | true =>
    simp only [Bool.and_eq_true, View.empty, List.isEmpty_iff] at he0
    simp only [if_true]
    obtain ⟨c2, b, m1, a2, _, kk, _⟩ := a.popFront
    obtain ⟨H3, m2, a3, s3⟩ := a2.unref
    simp only [m1, m2, Option.bind_some]
    exact ⟨H3, c2, vs, rfl, a3, by simp [he0.1, he0.2], kk, s3⟩
  | false =>
    simp only [Bool.false_eq_true, if_false]
    cases hc : can && (single || !vl.wasteful vf.data.length) with
    | true =>
      simp only [Bool.and_eq_true] at hc
      obtain ⟨rfl, _⟩ := hc
      simp only [if_true]
      obtain ⟨H1, c1, x, m1, m2, a1, hx, kk1, s1⟩ := a.prependFirst g2 k1
      simp only [m1, m2, Option.bind_some]
      exact ⟨H1, c1, _, rfl, a1, by simp [hx], kk1, s1⟩
    | false =>
      simp only [Bool.false_eq_true, if_false]
      rw [if_pos (by omega)]
      have hpos : vl.data.length + vf.data.length ≠ 0 := by
        intro h0
        have h1 : vl.data = [] := List.eq_nil_of_length_eq_zero (by omega)
        have h2 : vf.data = [] := List.eq_nil_of_length_eq_zero (by omega)
        simp [View.empty, h1, h2] at he0
      obtain ⟨cap, m0, q1, q2⟩ : ∃ cap, (if single then
            newBlockCapacity c vl.data.length vf.data.length 0 o
          else some (vl.data.length + vf.data.length)) = some cap ∧
          vl.data.length + vf.data.length ≤ cap ∧ cap ≤ maxCap := by
        cases single with
        | true =>
          simp only [if_true]
          exact newBlockCapacity_spec ho hvl hsum
        | false =>
          simp only [Bool.false_eq_true, if_false]
          exact ⟨_, rfl, Nat.le_refl _, hsum⟩
      obtain ⟨H1, nb, H2, H3, c4, old, H5, x, m1, m2, m3, m4, m5, a5, hx, kk, s5⟩ :=
        a.mergeFirst he (src := vf.data) (cap := cap) (by omega) q1 q2
      refine ⟨H5, c4, _, ?_, a5, by simp [hx], kk, s5⟩
      cases single with
      | true =>
        simp only [if_true] at m0 ⊢
        simp only [m0, m1, m2, m3, m4, m5, Option.bind_some]
      | false =>
        simp only [Bool.false_eq_true, if_false, Option.some.injEq] at m0 ⊢
        rw [m0]
        simp only [m1, m2, m3, m4, m5, Option.bind_some]

theorem prependBoundary_spec {env : Env} (he : env.Ok) {H : Heap} {c : Ch} {vs : List View}
    {vl vf : View} {f : Nat} {F : List Nat} {o : Opts} (ho : o.Ok) (single : Bool)
    (a : Abs H c (vl :: vs) (f :: F)) (hvf : view H f = some vf)
    (hs : c.size = (flat (vl :: vs)).length) :
    ∃ H' c' vs' consumed, prependBoundary env H c f single o = some (H', c', consumed) ∧
      Abs H' c' vs' (f :: F) ∧
      flat vs' = (if consumed then vf.data else []) ++ flat (vl :: vs) ∧ Keep c c' ∧
      Same H H' (f :: F) := by
  obtain ⟨ids, l, g1, g2, g3, g4, g5, g6⟩ := a.first
  obtain ⟨can, k1⟩ := canPrepend_some a.good (id := l) (by simp [g1]) vf.data.length
  have hmc : maxCap = 2 ^ 63 - 1 := rfl
  have hmb : minBlock = 512 := rfl
  have hwl : vl.wasteful = true → vl.data.length ≤ 2 ^ 62 - 240 :=
    wasteful_small a.good (id := l) (by simp [g1]) g3
  have hwf : vf.wasteful = true → vf.data.length ≤ 2 ^ 62 - 240 :=
    wasteful_small a.good (id := f) (by simp) hvf
  have hfle := (a.good.view_le (id := f) (by simp) hvf).1
  have merge : vl.data.length + vf.data.length ≤ maxCap →
      ∃ H' c' vs' consumed, ((prependMerge env H c f single o).bind fun x => some (x.1, x.2, true))
        = some (H', c', consumed) ∧ Abs H' c' vs' (f :: F) ∧
      flat vs' = (if consumed then vf.data else []) ++ flat (vl :: vs) ∧ Keep c c' ∧
      Same H H' (f :: F) := by
    intro hsum
    obtain ⟨H', c', vs', m1, m2, m3, m4, m5⟩ := prependMerge_spec he ho single a hvf hs hsum
    exact ⟨H', c', vs', true, by rw [m1]; rfl, m2, by simpa using m3, m4, m5⟩
  have inplace : can = true →
      ∃ H' c' vs' consumed, ((blkPrepend H l vf.data).bind fun H => (refreshFront H c).bind fun c => some (H, c, true))
        = some (H', c', consumed) ∧ Abs H' c' vs' (f :: F) ∧
      flat vs' = (if consumed then vf.data else []) ++ flat (vl :: vs) ∧ Keep c c' ∧
      Same H H' (f :: F) := by
    rintro rfl
    obtain ⟨H1, c1, x, m1, m2, a1, hx, kk1, s1⟩ := a.prependFirst g2 k1
    exact ⟨H1, c1, _, true, by rw [m1, Option.bind_some, m2]; rfl, a1, by simp [hx], kk1, s1⟩
  unfold prependBoundary
  simp only [g2, g3, hvf, k1, Option.bind_eq_bind, Option.bind_some]
  cases ht : vl.tiny && vf.tiny with
  | true =>
    simp only [Bool.and_eq_true, view_tiny] at ht
    simp only [if_true]
    exact merge (by omega)
  | false =>
    simp only [Bool.false_eq_true, if_false]
    cases hle : vl.empty with
    | true =>
      have hl0 : vl.data = [] := by simpa [View.empty] using hle
      simp only [if_true]
      cases h1 : !single && vf.wasteful with
      | true =>
        simp only [Bool.and_eq_true] at h1
        simp only [if_true]
        have := hwf h1.2
        exact merge (by rw [hl0]; simp; omega)
      | false =>
        simp only [Bool.false_eq_true, if_false]
        obtain ⟨c2, b, m1, a2, _, kk, _⟩ := a.popFront
        obtain ⟨H3, m2, a3, s3⟩ := a2.unref
        simp only [m1, m2, Option.bind_some]
        exact ⟨H3, c2, vs, false, rfl, a3, by simp [hl0], kk, s3⟩
    | false =>
      have hl0 : vl.data ≠ [] := by
        intro h; simp [View.empty, h] at hle
      simp only [Bool.false_eq_true, if_false]
      cases hw : vl.wasteful with
      | true =>
        simp only [if_true]
        have hwl' := hwl hw
        cases h1 : !single && (vf.empty || vf.wasteful) with
        | true =>
          simp only [Bool.and_eq_true, Bool.or_eq_true] at h1
          simp only [if_true]
          refine merge ?_
          rcases h1.2 with h2 | h2
          · have : vf.data = [] := by simpa [View.empty] using h2
            rw [this]; simp; omega
          · have := hwf h2
            omega
        | false =>
          simp only [Bool.false_eq_true, if_false]
          cases h2 : can && (single || !vl.wasteful vf.data.length) &&
              decide (vf.data.length ≤ allocationCost + vl.data.length) with
          | true =>
            simp only [Bool.and_eq_true] at h2
            simp only [if_true]
            exact inplace h2.1.1
          | false =>
            simp only [Bool.false_eq_true, if_false]
            obtain ⟨H1, nb, c2, old, H3, x, m1, m2, m3, a3, hx, kk, s3⟩ := a.copyFirst he g2 hl0
            simp only [m1, m2, m3, Option.bind_some]
            exact ⟨H3, c2, _, false, rfl, a3, by simp [hx], kk, s3⟩
      | false =>
        simp only [Bool.false_eq_true, if_false]
        cases single with
        | true =>
          simp only [Bool.not_true, Bool.false_eq_true, if_false]
          exact ⟨H, c, _, false, rfl, a, by simp, Keep.refl c, Same.refl _ _⟩
        | false =>
          simp only [Bool.not_false, if_true]
          cases hfe : vf.empty with
          | true =>
            have hf0 : vf.data = [] := by simpa [View.empty] using hfe
            simp only [if_true]
            exact ⟨H, c, _, true, rfl, a, by simp [hf0], Keep.refl c, Same.refl _ _⟩
          | false =>
            have hf0 : vf.data ≠ [] := by
              intro h; simp [View.empty, h] at hfe
            simp only [Bool.false_eq_true, if_false]
            cases hfw : vf.wasteful with
            | false =>
              simp only [Bool.false_eq_true, if_false]
              exact ⟨H, c, _, false, rfl, a, by simp, Keep.refl c, Same.refl _ _⟩
            | true =>
              simp only [if_true]
              cases h2 : can && !vl.wasteful vf.data.length with
              | true =>
                simp only [Bool.and_eq_true] at h2
                simp only [if_true]
                exact inplace h2.1
              | false =>
                simp only [Bool.false_eq_true, if_false]
                obtain ⟨H1, nb, m1, f1⟩ := copyBlock_spec he a.good (id := f) (by simp) hvf hf0 hfle
                obtain ⟨cap1, v1, _, _⟩ := f1.toFresh.view
                have a1 := a.fresh f1.toFresh
                obtain ⟨c2, m2, a2, kk2, _⟩ := a1.pushFront v1
                simp only [m1, m2, Option.bind_some]
                exact ⟨H1, c2, _, true, rfl, a2, by simp, kk2, f1.same.mono fun j hj => by
                  simp only [List.mem_append]; exact .inr hj⟩

theorem prependBoundaryShort_spec {env : Env} (he : env.Ok) {H : Heap} {c : Ch}
    {vf : View} {f : Nat} {F : List Nat} {o : Opts} (ho : o.Ok) (single : Bool)
    (a : Abs H c [] (f :: F)) (w : Wf c []) (hvf : view H f = some vf) :
    ∃ H' c' vs' consumed, prependBoundaryShort env H c f single o = some (H', c', consumed) ∧
      Abs H' c' vs' (f :: F) ∧
      flat vs' = (if consumed then vf.data else []) ++ content c [] ∧ Keep c c' ∧
      Same H H' (f :: F) := by
  have hms : maxShort = 16 := rfl
  have hmc : maxCap = 2 ^ 63 - 1 := rfl
  have hmb : minBlock = 512 := rfl
  have hwf : vf.wasteful = true → vf.data.length ≤ 2 ^ 62 - 240 :=
    wasteful_small a.good (id := f) (by simp) hvf
  have hcl := content_length a w
  have h16 := short16_some a w
  have hsd := shortData_some a w
  rw [← content_nil] at hsd
  have w1 := (w.nil rfl).1
  unfold prependBoundaryShort
  simp only [hvf, Option.bind_eq_bind, Option.bind_some]
  cases ht : vf.tiny || (!single && vf.wasteful) with
  | true =>
    have hsum : vf.data.length ≤ 2 ^ 62 - 240 := by
      simp only [Bool.or_eq_true, Bool.and_eq_true, view_tiny] at ht
      rcases ht with h | h
      · omega
      · exact hwf h.2
    simp only [if_true, hsd, Option.bind_some]
    cases hne : !(content c []).isEmpty || !vf.empty with
    | false =>
      simp only [Bool.or_eq_false_iff, Bool.not_eq_false', View.empty, List.isEmpty_iff] at hne
      simp only [Bool.false_eq_true, if_false]
      exact ⟨H, c, [], true, rfl, a, by simp [hne.1, hne.2], Keep.refl c, Same.refl _ _⟩
    | true =>
      simp only [if_true]
      rw [if_pos (by omega)]
      obtain ⟨cap, m0, q1, q2⟩ : ∃ cap, (if single then
            newBlockCapacity c c.size vf.data.length 0 o
          else some (c.size + vf.data.length)) = some cap ∧
          c.size + vf.data.length ≤ cap ∧ cap ≤ maxCap := by
        cases single with
        | true =>
          simp only [if_true]
          obtain ⟨cap, p1, p2, p3⟩ := newBlockCapacity_spec (c := c) (replaced := c.size) (rec := 0)
            (minLen := vf.data.length) ho (by omega) (by omega)
          exact ⟨cap, p1, by omega, p3⟩
        | false =>
          simp only [Bool.false_eq_true, if_false]
          exact ⟨_, rfl, Nat.le_refl _, by omega⟩
      have hpos : c.size + vf.data.length ≠ 0 := by
        intro h0
        have h1 : content c [] = [] := List.eq_nil_of_length_eq_zero (by omega)
        have h2 : vf.data = [] := List.eq_nil_of_length_eq_zero (by omega)
        simp [View.empty, h1, h2] at hne
      obtain ⟨H1, b, k1, _, f1⟩ := newInternal_fresh he a.good (n := cap) (by omega) q2
      obtain ⟨H2, k2, f2⟩ := f1.prepend (content c []) (by rw [hcl]; simp; omega)
      rw [List.append_nil] at f2
      obtain ⟨H3, k3, f3⟩ := f2.prepend vf.data (by omega)
      obtain ⟨cap3, v3, _, _⟩ := f3.toFresh.view
      have a3 := a.fresh f3.toFresh
      obtain ⟨c4, k4, a4, kk4, _⟩ := a3.pushFront v3
      refine ⟨H3, c4, _, true, ?_, a4, by simp, kk4, f3.same.mono fun j hj => by
        simp only [List.mem_append]; exact .inr hj⟩
      cases single with
      | true =>
        simp only [if_true] at m0 ⊢
        simp only [m0, k1, k2, k3, k4, Option.bind_some]
      | false =>
        simp only [Bool.false_eq_true, if_false, Option.some.injEq] at m0 ⊢
        rw [m0]
        simp only [k1, k2, k3, k4, Option.bind_some]
  | false =>
    simp only [Bool.false_eq_true, if_false]
    by_cases h0 : c.size = 0
    · rw [if_neg (by omega)]
      have : content c [] = [] := List.eq_nil_of_length_eq_zero (by omega)
      exact ⟨H, c, [], false, rfl, a, by simp [this], Keep.refl c, Same.refl _ _⟩
    · rw [if_pos h0]
      obtain ⟨H1, b, H2, k1, k2, f2⟩ := a.shortBlock he w (cap := maxShort) (by omega) (by omega)
      obtain ⟨cap3, v3, _, _⟩ := f2.toFresh.view
      have a3 := a.fresh f2.toFresh
      obtain ⟨c4, k4, a4, kk4, _⟩ := a3.pushFront v3
      simp only [h16, k1, k2, k4, Option.bind_some]
      exact ⟨H2, c4, _, false, rfl, a4, by simp, kk4, f2.same.mono fun j hj => by
        simp only [List.mem_append]; exact .inr hj⟩

/-- `Prepend(Chain)`. -/
theorem prependChain_spec {env : Env} (he : env.Ok) {H : Heap} {c src : Ch} {E : List Nat}
    {d ds : Bytes} {o : Opts} (ho : o.Ok) (own : Ownership) (r : Rep H c (src.blocks ++ E) d)
    (rs : Rep H src (c.blocks ++ E) ds) (hsz : d.length + ds.length ≤ maxSize) :
    ∃ H' c' src', prependChain env H c src own o = some (H', c', src') ∧
      Rep H' c' (src'.blocks ++ E) (ds ++ d) ∧ Left H' src src' (c'.blocks ++ E) ds own ∧
      Same H H' E := by
  have hsize := r.size
  have hsize' := rs.size
  have hmz : maxSize = 2 ^ 64 - 1 := rfl
  have rs0 := rs
  obtain ⟨ws, as, wws, hds⟩ := rs
  unfold prependChain
  rcases List.eq_nil_or_concat ws with hnil | ⟨wt, vf, hcat⟩
  · subst hnil
    have hb : src.blocks = [] := as.nil_iff.2 rfl
    have : back src = none := by simp [back, hb]
    rw [this]
    have hsd := shortData_some as wws
    rw [← content_nil, hds] at hsd
    obtain ⟨H', c', k1, r1, s1⟩ := prependBytes_spec he ho (src := ds) r hsz
    simp only [hsd, k1, Option.bind_eq_bind, Option.bind_some]
    have r2 := rs0.other r1 s1
    refine ⟨H', c', src, rfl, r1, ?_, s1.mono fun j hj => by simp [hj]⟩
    cases own
    · exact ⟨ds, r2⟩
    · exact ⟨rfl, r2⟩
  · rw [List.concat_eq_append] at hcat
    subst hcat
    obtain ⟨tl, f, hb, hf, hvf, hvt, _, _⟩ := as.last
    rw [hf]
    simp only
    rw [if_neg (by omega)]
    have hds' : flat (wt ++ [vf]) = ds := by
      unfold content at hds; rw [if_neg (by simp)] at hds; exact hds
    obtain ⟨vs, a, w, hd⟩ := r
    have hE : ∀ x, (f :: (tl ++ E)).count x = (src.blocks ++ E).count x := by
      intro x; rw [hb]; simp [List.count_cons]; omega
    have hEm : ∀ x, x ∈ src.blocks ++ E → x ∈ f :: (tl ++ E) := by
      intro x hx; rw [hb] at hx; simp at hx ⊢; rcases hx with h | h | h <;> simp [h]
    replace a := a.congr hE
    -- the boundary
    obtain ⟨H1, c1, vs1, consumed, k1, a1, hfl, kk1, s1⟩ : ∃ H' c' vs' consumed,
        (if c.blocks = [] then prependBoundaryShort env H c f (src.blocks.length == 1) o
          else prependBoundary env H c f (src.blocks.length == 1) o) = some (H', c', consumed) ∧
        Abs H' c' vs' (f :: (tl ++ E)) ∧
        flat vs' = (if consumed then vf.data else []) ++ d ∧ Keep c c' ∧
        Same H H' (f :: (tl ++ E)) := by
      cases vs with
      | nil =>
        rw [if_pos (a.nil_iff.2 rfl), ← hd]
        exact prependBoundaryShort_spec he ho _ a w hvf
      | cons l ws =>
        have hne : l :: ws ≠ [] := by simp
        rw [if_neg (fun h => hne (a.nil_iff.1 h))]
        have hd' : flat (l :: ws) = d := by
          unfold content at hd; rw [if_neg hne] at hd; exact hd
        rw [← hd']
        exact prependBoundary_spec he ho _ a hvf (w.cons hne)
    have hvt1 : tl.map (view H1) = wt.map some := by
      rw [← hvt]; exact List.map_congr_left fun j hj => s1 j (by simp [hj])
    have hvf1 : view H1 f = some vf := by rw [s1 f (by simp), hvf]
    -- the rest
    obtain ⟨H', c', k2, a2, s2⟩ : ∃ H' c', ((if consumed then unrefO H1 f own else some H1).bind fun H =>
          Chn.prependBlocks H { c1 with size := c1.size + src.size } own
            (if consumed then src.blocks.dropLast else src.blocks)) = some (H', c') ∧
          Rep H' c' (rest own (tl ++ [f]) E) (ds ++ d) ∧ Same H1 H' (rest own (tl ++ [f]) E) := by
      cases consumed with
      | true =>
        obtain ⟨H2, k2, a2, s2⟩ := a1.dropO own
        simp only [if_true, k2, Option.bind_some, hb, List.dropLast_concat]
        have hs2 : Same H1 H2 tl := s2.mono fun j hj => by cases own <;> simp [rest, hj]
        have hperm : ∀ x, (tl ++ rest own [f] E).count x = (rest own [f] (tl ++ E)).count x := by
          intro x; cases own <;> simp [rest, List.count_cons]; omega
        have a2' : Abs H2 { c1 with size := c1.size + src.size } vs1 (tl ++ rest own [f] E) :=
          (a2.congr hperm).ext rfl rfl rfl
        obtain ⟨H3, c3, k3, a3, kk3, s3⟩ := a2'.prependBlocks (own := own) (ws := wt)
          (by rw [← hvt1]; exact List.map_congr_left hs2)
        have hperm' : ∀ x, (rest own (tl ++ [f]) E).count x = (rest own tl (rest own [f] E)).count x := by
          intro x; cases own <;> simp [rest, List.count_cons]
        refine ⟨H3, c3, k3, Rep.ofFlat (a3.congr hperm') ?_ ?_, ?_⟩
        · rw [flat_append, hfl, ← hds']; simp
        · rw [kk3.1]
          show c1.size + src.size = _
          rw [kk1.1, List.length_append, hsize, hsize']; exact Nat.add_comm _ _
        · refine (s2.mono (E := rest own (tl ++ [f]) E) ?_).trans (s3.mono (E := rest own (tl ++ [f]) E) ?_)
            (fun _ h => h) <;> intro j hj <;> cases own <;> simp [rest] at hj ⊢ <;>
              (try exact hj) <;> (try (rcases hj with h | h | h <;> simp [h])) <;> simp [hj]
      | false =>
        simp only [Bool.false_eq_true, if_false, Option.bind_some, hb]
        have a1' : Abs H1 { c1 with size := c1.size + src.size } vs1 ((tl ++ [f]) ++ E) :=
          (a1.congr fun x => by simp [List.count_cons]; omega).ext rfl rfl rfl
        obtain ⟨H3, c3, k3, a3, kk3, s3⟩ := a1'.prependBlocks (own := own) (ws := wt ++ [vf])
          (by simp [hvf1, hvt1])
        refine ⟨H3, c3, k3, Rep.ofFlat a3 ?_ ?_, s3⟩
        · rw [flat_append, hfl, ← hds']; simp
        · rw [kk3.1]
          show c1.size + src.size = _
          rw [kk1.1, List.length_append, hsize, hsize']; exact Nat.add_comm _ _
    have hrun : ∀ {α : Type} (g : Heap × Ch × Bool → Option α),
        (if c.blocks = [] then
          (prependBoundaryShort env H c f (src.blocks.length == 1) o).bind g
          else (prependBoundary env H c f (src.blocks.length == 1) o).bind g) = g (H1, c1, consumed) := by
      intro α g
      by_cases h0 : c.blocks = []
      · rw [if_pos h0] at k1 ⊢; rw [k1]; rfl
      · rw [if_neg h0] at k1 ⊢; rw [k1]; rfl
    have hsame : Same H H' E := by
      refine (s1.mono (E := E) fun j hj => by simp [hj]).trans (s2.mono (E := E) ?_) (fun _ h => h)
      intro j hj; cases own <;> simp [rest, hj]
    refine ⟨H', c', dropPassed src own, ?_, ?_, ?_, hsame⟩
    · simp only [Option.bind_eq_bind, hrun]
      cases consumed with
      | true =>
        simp only [if_true] at k2 ⊢
        cases hu : unrefO H1 f own with
        | none => rw [hu] at k2; simp at k2
        | some H2 =>
          rw [hu] at k2
          simp only [Option.bind_some] at k2 ⊢
          rw [k2]; rfl
      | false =>
        simp only [Bool.false_eq_true, if_false, Option.bind_some] at k2 ⊢
        rw [k2]; rfl
    · cases own
      · simpa [dropPassed, truncate, rest] using a2
      · simpa [dropPassed, rest, hb] using a2
    · cases own
      · exact ⟨[], rs0.dropped a2⟩
      · refine ⟨rfl, rs0.other (d' := ds ++ d) ?_ ?_⟩
        · simpa [rest, hb, dropPassed] using a2
        · refine (s1.mono hEm).trans (s2.mono (E := src.blocks ++ E) fun j hj => ?_) (fun _ h => h)
          rw [hb] at hj; exact hj

end Riegeli.Chn

import Verif.ChainMore
/-!
# Chain: appending and prepending a chain
-/
namespace Riegeli.Chn

/-! ### Many blocks -/

theorem Abs.appendLoop {own : Ownership} : ∀ (ids : List Nat) {H : Heap} {c : Ch} {vs ws : List View}
    {E : List Nat}, Abs H c vs (ids ++ E) → ids.map (view H) = ws.map some → RoomBack c ids.length →
    ∃ H' c', Chn.appendLoop H c own ids = some (H', c') ∧ Abs H' c' (vs ++ ws) (rest own ids E) ∧
      Keep c c' ∧ Same H H' (rest own ids E) := by
  intro ids
  induction ids with
  | nil =>
    intro H c vs ws E a hw _
    have : ws = [] := by simpa using hw.symm
    subst this
    refine ⟨H, c, rfl, ?_, Keep.refl c, Same.refl _ _⟩
    cases own <;> simpa [rest] using a
  | cons id ids ih =>
    intro H c vs ws E a hw hr
    cases ws with
    | nil => simp at hw
    | cons w ws =>
      simp only [List.map_cons, List.cons.injEq] at hw
      obtain ⟨H1, h1, a1, s1⟩ := Abs.refO (b := id) (E := ids ++ E) a own
      obtain ⟨c2, h2, a2, k2, e2, r2⟩ := a1.pushRaw (v := w) (n := ids.length)
        (by rw [s1 id (by simp), hw.1]) hr
      have hw' : ids.map (view H1) = ws.map some := by
        rw [← hw.2]
        exact List.map_congr_left fun j hj => s1 j (by simp [hj])
      have happ : vs ++ [w] ++ ws = vs ++ w :: ws := by simp
      have hrun : ∀ x, Chn.appendLoop H1 c2 own ids = some x →
          Chn.appendLoop H c own (id :: ids) = some x := by
        intro x hx
        unfold Chn.appendLoop
        simp only [h1, h2, Option.bind_eq_bind, Option.bind_some]
        exact hx
      cases own with
      | pass =>
        obtain ⟨H3, c3, h3, a3, k3, s3⟩ := ih (E := E) a2 hw' r2
        refine ⟨H3, c3, hrun _ h3, by rw [← happ]; exact a3, k2.trans k3, ?_⟩
        exact (s1.mono (E := E) fun j hj => by simp [hj]).trans s3 (fun _ h => h)
      | share =>
        have hperm : ∀ x, (ids ++ id :: E).count x = (id :: ids ++ E).count x := by
          intro x; simp [List.count_cons]; omega
        have a2' : Abs H1 c2 (vs ++ [w]) (ids ++ id :: E) := a2.congr hperm
        obtain ⟨H3, c3, h3, a3, k3, s3⟩ := ih a2' hw' r2
        refine ⟨H3, c3, hrun _ h3, ?_, k2.trans k3, ?_⟩
        · rw [← happ]
          exact Abs.congr (E := ids ++ id :: E) a3 fun x => (hperm x).symm
        · refine Same.trans (E' := ids ++ id :: E) (s1.mono (E := id :: ids ++ E) fun j hj => ?_) s3 ?_
          · simp at hj ⊢; rcases hj with h | h | h <;> simp [h]
          · intro j hj
            have hj' : j ∈ id :: ids ++ E := hj
            simp at hj' ⊢; rcases hj' with h | h | h <;> simp [h]

theorem Abs.prependLoop {own : Ownership} : ∀ (ids : List Nat) {H : Heap} {c : Ch} {vs ws : List View}
    {E : List Nat}, Abs H c vs (ids ++ E) → ids.map (view H) = ws.map some → RoomFront c ids.length →
    ∃ H' c', Chn.prependLoop H c own ids = some (H', c') ∧ Abs H' c' (ws.reverse ++ vs) (rest own ids E) ∧
      Keep c c' ∧ Same H H' (rest own ids E) := by
  intro ids
  induction ids with
  | nil =>
    intro H c vs ws E a hw _
    have : ws = [] := by simpa using hw.symm
    subst this
    refine ⟨H, c, rfl, ?_, Keep.refl c, Same.refl _ _⟩
    cases own <;> simpa [rest] using a
  | cons id ids ih =>
    intro H c vs ws E a hw hr
    cases ws with
    | nil => simp at hw
    | cons w ws =>
      simp only [List.map_cons, List.cons.injEq] at hw
      obtain ⟨H1, h1, a1, s1⟩ := Abs.refO (b := id) (E := ids ++ E) a own
      obtain ⟨c2, h2, a2, k2, e2, r2⟩ := a1.pushRawFront (v := w) (n := ids.length)
        (by rw [s1 id (by simp), hw.1]) hr
      have hw' : ids.map (view H1) = ws.map some := by
        rw [← hw.2]
        exact List.map_congr_left fun j hj => s1 j (by simp [hj])
      have happ : ws.reverse ++ w :: vs = (w :: ws).reverse ++ vs := by simp
      have hrun : ∀ x, Chn.prependLoop H1 c2 own ids = some x →
          Chn.prependLoop H c own (id :: ids) = some x := by
        intro x hx
        unfold Chn.prependLoop
        simp only [h1, h2, Option.bind_eq_bind, Option.bind_some]
        exact hx
      cases own with
      | pass =>
        obtain ⟨H3, c3, h3, a3, k3, s3⟩ := ih (E := E) a2 hw' r2
        refine ⟨H3, c3, hrun _ h3, by rw [← happ]; exact a3, k2.trans k3, ?_⟩
        exact (s1.mono (E := E) fun j hj => by simp [hj]).trans s3 (fun _ h => h)
      | share =>
        have hperm : ∀ x, (ids ++ id :: E).count x = (id :: ids ++ E).count x := by
          intro x; simp [List.count_cons]; omega
        have a2' : Abs H1 c2 (w :: vs) (ids ++ id :: E) := a2.congr hperm
        obtain ⟨H3, c3, h3, a3, k3, s3⟩ := ih a2' hw' r2
        refine ⟨H3, c3, hrun _ h3, ?_, k2.trans k3, ?_⟩
        · rw [← happ]
          exact Abs.congr (E := ids ++ id :: E) a3 fun x => (hperm x).symm
        · refine Same.trans (E' := ids ++ id :: E) (s1.mono (E := id :: ids ++ E) fun j hj => ?_) s3 ?_
          · simp at hj ⊢; rcases hj with h | h | h <;> simp [h]
          · intro j hj
            have hj' : j ∈ id :: ids ++ E := hj
            simp at hj' ⊢; rcases hj' with h | h | h <;> simp [h]

theorem Abs.appendBlocks {own : Ownership} {ids : List Nat} {H : Heap} {c : Ch} {vs ws : List View}
    {E : List Nat} (a : Abs H c vs (ids ++ E)) (hw : ids.map (view H) = ws.map some) :
    ∃ H' c', Chn.appendBlocks H c own ids = some (H', c') ∧ Abs H' c' (vs ++ ws) (rest own ids E) ∧
      Keep c c' ∧ Same H H' (rest own ids E) := by
  unfold Chn.appendBlocks
  by_cases h0 : ids = []
  · subst h0
    have : ws = [] := by simpa using hw.symm
    subst this
    refine ⟨H, c, rfl, ?_, Keep.refl c, Same.refl _ _⟩
    cases own <;> simpa [rest] using a
  · rw [if_neg h0]
    obtain ⟨c1, h1, a1, k1, e1, r1⟩ := a.reserveBack ids.length
    obtain ⟨H2, c2, h2, a2, k2, s2⟩ := Abs.appendLoop (own := own) ids a1 hw r1
    refine ⟨H2, c2, ?_, a2, k1.trans k2, s2⟩
    simp only [h1, h2, Option.bind_eq_bind, Option.bind_some]

theorem Abs.prependBlocks {own : Ownership} {ids : List Nat} {H : Heap} {c : Ch} {vs ws : List View}
    {E : List Nat} (a : Abs H c vs (ids ++ E)) (hw : ids.map (view H) = ws.map some) :
    ∃ H' c', Chn.prependBlocks H c own ids = some (H', c') ∧ Abs H' c' (ws ++ vs) (rest own ids E) ∧
      Keep c c' ∧ Same H H' (rest own ids E) := by
  unfold Chn.prependBlocks
  by_cases h0 : ids = []
  · subst h0
    have : ws = [] := by simpa using hw.symm
    subst this
    refine ⟨H, c, rfl, ?_, Keep.refl c, Same.refl _ _⟩
    cases own <;> simpa [rest] using a
  · rw [if_neg h0]
    obtain ⟨c1, h1, a1, k1, e1, r1⟩ := a.reserveFront ids.length
    have hperm : ∀ x, (ids.reverse ++ E).count x = (ids ++ E).count x := by intro x; simp
    obtain ⟨H2, c2, h2, a2, k2, s2⟩ := Abs.prependLoop (own := own) ids.reverse (ws := ws.reverse)
      (a1.congr hperm) (by rw [List.map_reverse, hw, List.map_reverse]) (by simpa using r1)
    refine ⟨H2, c2, ?_, ?_, k1.trans k2, ?_⟩
    · simp only [h1, h2, Option.bind_eq_bind, Option.bind_some]
    · rw [List.reverse_reverse] at a2
      refine a2.congr fun x => ?_
      cases own
      · rfl
      · exact (hperm x).symm
    · refine s2.mono fun j hj => ?_
      cases own <;> simpa [rest] using hj

theorem Abs.unrefAll : ∀ (ids : List Nat) {H : Heap} {E : List Nat}, Good H (ids ++ E) →
    ∃ H', Chn.unrefAll H ids = some H' ∧ Good H' E ∧ Same H H' E := by
  intro ids
  induction ids with
  | nil => intro H E g; exact ⟨H, rfl, by simpa using g, Same.refl _ _⟩
  | cons id ids ih =>
    intro H E g
    obtain ⟨H1, h1, g1, s1⟩ := unref_spec (id := id) (hs := ids ++ E) g
    obtain ⟨H2, h2, g2, s2⟩ := ih g1
    refine ⟨H2, ?_, g2, (s1.mono (E := E) fun j hj => by simp [hj]).trans s2 (fun _ h => h)⟩
    unfold Chn.unrefAll
    simp only [h1, Option.bind_eq_bind, Option.bind_some]
    exact h2

/-- A chain described by its blocks only. -/
theorem Rep.ofFlat {H : Heap} {c : Ch} {vs : List View} {E : List Nat} {d : Bytes}
    (a : Abs H c vs E) (hd : flat vs = d) (hs : c.size = d.length) : Rep H c E d := by
  by_cases hv : vs = []
  · subst hv
    have hd0 : d = [] := by simpa using hd.symm
    subst hd0
    have hs0 : c.size = 0 := by simpa using hs
    exact Rep.ofShort a (by rw [hs0]; decide) (fun _ => hs0) (by rw [hs0]; rfl)
  · exact Rep.ofBlocks a hv hd hs

theorem wasteful_small {H : Heap} {hs : List Nat} (g : Good H hs) {id : Nat} {v : View}
    (hm : id ∈ hs) (hv : view H id = some v) (hw : v.wasteful = true) :
    v.data.length ≤ 2 ^ 62 - 240 := by
  have hle := g.view_le hm hv
  unfold View.wasteful at hw
  split at hw
  · cases hw
  · rename_i k hk
    have := (hle.2 k hk).1
    have h9 : ¬ (headerSize + k ≤ 2 * (v.data.length + 0) + minBlock) := by
      intro h; rw [wasteful_false h] at hw; cases hw
    unfold headerSize minBlock at h9
    unfold maxCap at this
    omega

/-! ### Appending a chain -/

theorem appendMerge_spec {env : Env} (he : env.Ok) {H : Heap} {c : Ch} {vs : List View} {vl vf : View}
    {f : Nat} {F : List Nat} {o : Opts} (ho : o.Ok) (single : Bool)
    (a : Abs H c (vs ++ [vl]) (f :: F)) (hvf : view H f = some vf)
    (hs : c.size = (flat (vs ++ [vl])).length) (hsum : vl.data.length + vf.data.length ≤ maxCap) :
    ∃ H' c' vs', appendMerge env H c f single o = some (H', c') ∧ Abs H' c' vs' (f :: F) ∧
      flat vs' = flat (vs ++ [vl]) ++ vf.data ∧ Keep c c' ∧ Same H H' (f :: F) := by
  obtain ⟨ids, l, g1, g2, g3, g4, g5, g6⟩ := a.last
  obtain ⟨can, k1⟩ := canAppend_some a.good (id := l) (by simp [g1]) vf.data.length
  have hvl : vl.data.length ≤ c.size := by rw [hs]; simp
  unfold appendMerge
  simp only [g2, g3, hvf, k1, Option.bind_eq_bind, Option.bind_some]
  cases he0 : vl.empty && vf.empty with
  | true =>
    simp only [Bool.and_eq_true, View.empty, List.isEmpty_iff] at he0
    simp only [if_true]
    obtain ⟨c2, b, m1, a2, _, kk, _⟩ := a.popBack
    obtain ⟨H3, m2, a3, s3⟩ := a2.unref
    simp only [m1, m2, Option.bind_some]
    exact ⟨H3, c2, vs, rfl, a3, by simp [he0.1, he0.2], kk, s3⟩
  | false =>
    simp only [Bool.false_eq_true, if_false]
    cases hc : can && (single || !vl.wasteful vf.data.length) with
    | true =>
      simp only [Bool.and_eq_true] at hc
      obtain ⟨rfl, _⟩ := hc
      simp only [if_true]
      obtain ⟨H1, x, m1, a1, hx, s1⟩ := a.appendLast g2 k1
      simp only [m1, Option.bind_some]
      exact ⟨H1, c, _, rfl, a1, by simp [hx], Keep.refl c, s1⟩
    | false =>
      simp only [Bool.false_eq_true, if_false]
      rw [if_pos (by omega)]
      have hpos : vl.data.length + vf.data.length ≠ 0 := by
        intro h0
        have h1 : vl.data = [] := List.eq_nil_of_length_eq_zero (by omega)
        have h2 : vf.data = [] := List.eq_nil_of_length_eq_zero (by omega)
        simp [View.empty, h1, h2] at he0
      obtain ⟨cap, m0, q1, q2⟩ : ∃ cap, (if single then
            newBlockCapacity c vl.data.length vf.data.length 0 o
          else some (vl.data.length + vf.data.length)) = some cap ∧
          vl.data.length + vf.data.length ≤ cap ∧ cap ≤ maxCap := by
        cases single with
        | true =>
          simp only [if_true]
          exact newBlockCapacity_spec ho hvl hsum
        | false =>
          simp only [Bool.false_eq_true, if_false]
          exact ⟨_, rfl, Nat.le_refl _, hsum⟩
      obtain ⟨H1, nb, H2, H3, c4, old, H5, x, m1, m2, m3, m4, m5, a5, hx, kk, s5⟩ :=
        a.mergeLast he (src := vf.data) (cap := cap) (by omega) q1 q2
      refine ⟨H5, c4, _, ?_, a5, by simp [hx], kk, s5⟩
      cases single with
      | true =>
        simp only [if_true] at m0 ⊢
        simp only [m0, m1, m2, m3, m4, m5, Option.bind_some]
      | false =>
        simp only [Bool.false_eq_true, if_false, Option.some.injEq] at m0 ⊢
        rw [m0]
        simp only [m1, m2, m3, m4, m5, Option.bind_some]

theorem appendBoundary_spec {env : Env} (he : env.Ok) {H : Heap} {c : Ch} {vs : List View}
    {vl vf : View} {f : Nat} {F : List Nat} {o : Opts} (ho : o.Ok) (single : Bool)
    (a : Abs H c (vs ++ [vl]) (f :: F)) (hvf : view H f = some vf)
    (hs : c.size = (flat (vs ++ [vl])).length) :
    ∃ H' c' vs' consumed, appendBoundary env H c f single o = some (H', c', consumed) ∧
      Abs H' c' vs' (f :: F) ∧
      flat vs' = flat (vs ++ [vl]) ++ (if consumed then vf.data else []) ∧ Keep c c' ∧
      Same H H' (f :: F) := by
  obtain ⟨ids, l, g1, g2, g3, g4, g5, g6⟩ := a.last
  obtain ⟨can, k1⟩ := canAppend_some a.good (id := l) (by simp [g1]) vf.data.length
  have hmc : maxCap = 2 ^ 63 - 1 := rfl
  have hmb : minBlock = 512 := rfl
  have hwl : vl.wasteful = true → vl.data.length ≤ 2 ^ 62 - 240 :=
    wasteful_small a.good (id := l) (by simp [g1]) g3
  have hwf : vf.wasteful = true → vf.data.length ≤ 2 ^ 62 - 240 :=
    wasteful_small a.good (id := f) (by simp) hvf
  have hfle := (a.good.view_le (id := f) (by simp) hvf).1
  have merge : vl.data.length + vf.data.length ≤ maxCap →
      ∃ H' c' vs' consumed, ((appendMerge env H c f single o).bind fun x => some (x.1, x.2, true))
        = some (H', c', consumed) ∧ Abs H' c' vs' (f :: F) ∧
      flat vs' = flat (vs ++ [vl]) ++ (if consumed then vf.data else []) ∧ Keep c c' ∧
      Same H H' (f :: F) := by
    intro hsum
    obtain ⟨H', c', vs', m1, m2, m3, m4, m5⟩ := appendMerge_spec he ho single a hvf hs hsum
    exact ⟨H', c', vs', true, by rw [m1]; rfl, m2, by simpa using m3, m4, m5⟩
  have inplace : can = true →
      ∃ H' c' vs' consumed, ((blkAppend H l vf.data).bind fun H => some (H, c, true))
        = some (H', c', consumed) ∧ Abs H' c' vs' (f :: F) ∧
      flat vs' = flat (vs ++ [vl]) ++ (if consumed then vf.data else []) ∧ Keep c c' ∧
      Same H H' (f :: F) := by
    rintro rfl
    obtain ⟨H1, x, m1, a1, hx, s1⟩ := a.appendLast g2 k1
    exact ⟨H1, c, _, true, by rw [m1]; rfl, a1, by simp [hx], Keep.refl c, s1⟩
  unfold appendBoundary
  simp only [g2, g3, hvf, k1, Option.bind_eq_bind, Option.bind_some]
  cases ht : vl.tiny && vf.tiny with
  | true =>
    simp only [Bool.and_eq_true, view_tiny] at ht
    simp only [if_true]
    exact merge (by omega)
  | false =>
    simp only [Bool.false_eq_true, if_false]
    cases hle : vl.empty with
    | true =>
      have hl0 : vl.data = [] := by simpa [View.empty] using hle
      simp only [if_true]
      cases h1 : !single && vf.wasteful with
      | true =>
        simp only [Bool.and_eq_true] at h1
        simp only [if_true]
        have := hwf h1.2
        exact merge (by rw [hl0]; simp; omega)
      | false =>
        simp only [Bool.false_eq_true, if_false]
        obtain ⟨c2, b, m1, a2, _, kk, _⟩ := a.popBack
        obtain ⟨H3, m2, a3, s3⟩ := a2.unref
        simp only [m1, m2, Option.bind_some]
        exact ⟨H3, c2, vs, false, rfl, a3, by simp [hl0], kk, s3⟩
    | false =>
      have hl0 : vl.data ≠ [] := by
        intro h; simp [View.empty, h] at hle
      simp only [Bool.false_eq_true, if_false]
      cases hw : vl.wasteful with
      | true =>
        simp only [if_true]
        have hwl' := hwl hw
        cases h1 : !single && (vf.empty || vf.wasteful) with
        | true =>
          simp only [Bool.and_eq_true, Bool.or_eq_true] at h1
          simp only [if_true]
          refine merge ?_
          rcases h1.2 with h2 | h2
          · have : vf.data = [] := by simpa [View.empty] using h2
            rw [this]; simp; omega
          · have := hwf h2
            omega
        | false =>
          simp only [Bool.false_eq_true, if_false]
          cases h2 : can && (single || !vl.wasteful vf.data.length) &&
              decide (vf.data.length ≤ allocationCost + vl.data.length) with
          | true =>
            simp only [Bool.and_eq_true] at h2
            simp only [if_true]
            exact inplace h2.1.1
          | false =>
            simp only [Bool.false_eq_true, if_false]
            obtain ⟨H1, nb, c2, old, H3, x, m1, m2, m3, a3, hx, kk, s3⟩ := a.copyLast he g2 hl0
            simp only [m1, m2, m3, Option.bind_some]
            exact ⟨H3, c2, _, false, rfl, a3, by simp [hx], kk, s3⟩
      | false =>
        simp only [Bool.false_eq_true, if_false]
        cases single with
        | true =>
          simp only [Bool.not_true, Bool.false_eq_true, if_false]
          exact ⟨H, c, _, false, rfl, a, by simp, Keep.refl c, Same.refl _ _⟩
        | false =>
          simp only [Bool.not_false, if_true]
          cases hfe : vf.empty with
          | true =>
            have hf0 : vf.data = [] := by simpa [View.empty] using hfe
            simp only [if_true]
            exact ⟨H, c, _, true, rfl, a, by simp [hf0], Keep.refl c, Same.refl _ _⟩
          | false =>
            have hf0 : vf.data ≠ [] := by
              intro h; simp [View.empty, h] at hfe
            simp only [Bool.false_eq_true, if_false]
            cases hfw : vf.wasteful with
            | false =>
              simp only [Bool.false_eq_true, if_false]
              exact ⟨H, c, _, false, rfl, a, by simp, Keep.refl c, Same.refl _ _⟩
            | true =>
              simp only [if_true]
              cases h2 : can && !vl.wasteful vf.data.length with
              | true =>
                simp only [Bool.and_eq_true] at h2
                simp only [if_true]
                exact inplace h2.1
              | false =>
                simp only [Bool.false_eq_true, if_false]
                obtain ⟨H1, nb, m1, f1⟩ := copyBlock_spec he a.good (id := f) (by simp) hvf hf0 hfle
                obtain ⟨cap1, v1, _, _⟩ := f1.toFresh.view
                have a1 := a.fresh f1.toFresh
                obtain ⟨c2, m2, a2, kk2, _⟩ := a1.pushBack v1
                simp only [m1, m2, Option.bind_some]
                exact ⟨H1, c2, _, true, rfl, a2, by simp, kk2, f1.same.mono fun j hj => by
                  simp only [List.mem_append]; exact .inr hj⟩

theorem appendBoundaryShort_spec {env : Env} (he : env.Ok) {H : Heap} {c : Ch}
    {vf : View} {f : Nat} {F : List Nat} {o : Opts} (ho : o.Ok) (single : Bool)
    (a : Abs H c [] (f :: F)) (w : Wf c []) (hvf : view H f = some vf) :
    ∃ H' c' vs' consumed, appendBoundaryShort env H c f single o = some (H', c', consumed) ∧
      Abs H' c' vs' (f :: F) ∧
      flat vs' = content c [] ++ (if consumed then vf.data else []) ∧ Keep c c' ∧
      Same H H' (f :: F) := by
  have hms : maxShort = 16 := rfl
  have hmc : maxCap = 2 ^ 63 - 1 := rfl
  have hmb : minBlock = 512 := rfl
  have hwf : vf.wasteful = true → vf.data.length ≤ 2 ^ 62 - 240 :=
    wasteful_small a.good (id := f) (by simp) hvf
  have hcl := content_length a w
  have h16 := short16_some a w
  have hsd := shortData_some a w
  rw [← content_nil] at hsd
  have w1 := (w.nil rfl).1
  unfold appendBoundaryShort
  simp only [hvf, Option.bind_eq_bind, Option.bind_some]
  cases ht : vf.tiny || (!single && vf.wasteful) with
  | true =>
    have hsum : vf.data.length ≤ 2 ^ 62 - 240 := by
      simp only [Bool.or_eq_true, Bool.and_eq_true, view_tiny] at ht
      rcases ht with h | h
      · omega
      · exact hwf h.2
    simp only [if_true, hsd, Option.bind_some]
    cases hne : !(content c []).isEmpty || !vf.empty with
    | false =>
      simp only [Bool.or_eq_false_iff, Bool.not_eq_false', View.empty, List.isEmpty_iff] at hne
      simp only [Bool.false_eq_true, if_false]
      exact ⟨H, c, [], true, rfl, a, by simp [hne.1, hne.2], Keep.refl c, Same.refl _ _⟩
    | true =>
      simp only [if_true, h16, Option.bind_some]
      rw [if_pos (by omega)]
      obtain ⟨cap, m0, q1, q2⟩ : ∃ cap, (if single then
            newBlockCapacity c c.size (max vf.data.length (maxShort - c.size)) 0 o
          else some (max (c.size + vf.data.length) maxShort)) = some cap ∧
          max (c.size + vf.data.length) maxShort ≤ cap ∧ cap ≤ maxCap := by
        cases single with
        | true =>
          simp only [if_true]
          obtain ⟨cap, p1, p2, p3⟩ := newBlockCapacity_spec (c := c) (replaced := c.size) (rec := 0)
            (minLen := max vf.data.length (maxShort - c.size)) ho (by omega) (by omega)
          exact ⟨cap, p1, by omega, p3⟩
        | false =>
          simp only [Bool.false_eq_true, if_false]
          exact ⟨_, rfl, Nat.le_refl _, by omega⟩
      obtain ⟨H1, b, H2, k1, k2, f2⟩ := a.shortBlock he w (cap := cap) (by omega) q2
      obtain ⟨H3, k3, f3⟩ := f2.append vf.data (by omega)
      obtain ⟨cap3, v3, _, _⟩ := f3.toFresh.view
      have a3 := a.fresh f3.toFresh
      obtain ⟨c4, k4, a4, kk4, _⟩ := a3.pushBack v3
      refine ⟨H3, c4, _, true, ?_, a4, by simp, kk4, f3.same.mono fun j hj => by
        simp only [List.mem_append]; exact .inr hj⟩
      cases single with
      | true =>
        simp only [if_true] at m0 ⊢
        simp only [m0, k1, k2, k3, k4, Option.bind_some]
      | false =>
        simp only [Bool.false_eq_true, if_false, Option.some.injEq] at m0 ⊢
        rw [m0]
        simp only [k1, k2, k3, k4, Option.bind_some]
  | false =>
    simp only [Bool.false_eq_true, if_false]
    by_cases h0 : c.size = 0
    · rw [if_neg (by omega)]
      have : content c [] = [] := List.eq_nil_of_length_eq_zero (by omega)
      exact ⟨H, c, [], false, rfl, a, by simp [this], Keep.refl c, Same.refl _ _⟩
    · rw [if_pos h0]
      obtain ⟨H1, b, H2, k1, k2, f2⟩ := a.shortBlock he w (cap := maxShort) (by omega) (by omega)
      obtain ⟨cap3, v3, _, _⟩ := f2.toFresh.view
      have a3 := a.fresh f2.toFresh
      obtain ⟨c4, k4, a4, kk4, _⟩ := a3.pushBack v3
      simp only [h16, k1, k2, k4, Option.bind_some]
      exact ⟨H2, c4, _, false, rfl, a4, by simp, kk4, f2.same.mono fun j hj => by
        simp only [List.mem_append]; exact .inr hj⟩

/-- The other chain is not affected. -/
theorem Rep.other {H H' : Heap} {c c' src : Ch} {E : List Nat} {d' ds : Bytes}
    (rs : Rep H src (c.blocks ++ E) ds) (r' : Rep H' c' (src.blocks ++ E) d')
    (s : Same H H' (src.blocks ++ E)) : Rep H' src (c'.blocks ++ E) ds := by
  obtain ⟨ws, a, w, hd⟩ := rs
  obtain ⟨vs', a', _, _⟩ := r'
  refine ⟨ws, ⟨?_, ?_, a.arr, a.short⟩, w, hd⟩
  · exact a'.good.congr fun x => by simp; omega
  · rw [← a.views]
    exact List.map_congr_left fun j hj => s j (by simp [hj])

/-- A chain whose blocks were all passed elsewhere. -/
theorem Rep.dropped {H H' : Heap} {c c' src : Ch} {E : List Nat} {d' ds : Bytes}
    (rs : Rep H src (c.blocks ++ E) ds) (r' : Rep H' c' E d') :
    Rep H' (dropPassed src .pass) (c'.blocks ++ E) [] := by
  obtain ⟨ws, a, w, hd⟩ := rs
  obtain ⟨vs', a', _, _⟩ := r'
  refine Rep.ofShort ⟨?_, ?_, ?_, a.short⟩ (Nat.zero_le _) (fun _ => rfl) (by simp [dropPassed])
  · simpa [dropPassed, truncate] using a'.good
  · simp [dropPassed, truncate]
  · cases h : src.arr with
    | none => simp [dropPassed, truncate, h, ArrOk]
    | some x => simp [dropPassed, truncate, h, ArrOk, offsFrom]

/-- What remains in the other chain. -/
def Left (H' : Heap) (src src' : Ch) (F : List Nat) (ds : Bytes) : Ownership → Prop
  | .share => src' = src ∧ Rep H' src' F ds
  | .pass => ∃ ds', Rep H' src' F ds'

/-- `Append(Chain)`. -/
theorem appendChain_spec {env : Env} (he : env.Ok) {H : Heap} {c src : Ch} {E : List Nat}
    {d ds : Bytes} {o : Opts} (ho : o.Ok) (own : Ownership) (r : Rep H c (src.blocks ++ E) d)
    (rs : Rep H src (c.blocks ++ E) ds) (hsz : d.length + ds.length ≤ maxSize) :
    ∃ H' c' src', appendChain env H c src own o = some (H', c', src') ∧
      Rep H' c' (src'.blocks ++ E) (d ++ ds) ∧ Left H' src src' (c'.blocks ++ E) ds own ∧
      Same H H' E := by
  have hsize := r.size
  have hsize' := rs.size
  have hmz : maxSize = 2 ^ 64 - 1 := rfl
  have rs0 := rs
  obtain ⟨ws, as, wws, hds⟩ := rs
  unfold appendChain
  cases ws with
  | nil =>
    have hb : src.blocks = [] := as.nil_iff.2 rfl
    have : front src = none := by simp [front, hb]
    rw [this]
    have hsd := shortData_some as wws
    rw [← content_nil, hds] at hsd
    obtain ⟨H', c', k1, r1, s1⟩ := appendBytes_spec he ho (src := ds) r hsz
    simp only [hsd, k1, Option.bind_eq_bind, Option.bind_some]
    have r2 := rs0.other r1 s1
    refine ⟨H', c', src, rfl, r1, ?_, s1.mono fun j hj => by simp [hj]⟩
    cases own
    · exact ⟨ds, r2⟩
    · exact ⟨rfl, r2⟩
  | cons vf wt =>
    obtain ⟨tl, f, hb, hf, hvf, hvt, _, _⟩ := as.first
    rw [hf]
    simp only
    rw [if_neg (by omega)]
    have hds' : flat (vf :: wt) = ds := by
      unfold content at hds; rw [if_neg (by simp)] at hds; exact hds
    obtain ⟨vs, a, w, hd⟩ := r
    have hE : src.blocks ++ E = f :: (tl ++ E) := by rw [hb]; rfl
    rw [hE] at a
    -- the boundary
    obtain ⟨H1, c1, vs1, consumed, k1, a1, hfl, kk1, s1⟩ : ∃ H' c' vs' consumed,
        (if c.blocks = [] then appendBoundaryShort env H c f (src.blocks.length == 1) o
          else appendBoundary env H c f (src.blocks.length == 1) o) = some (H', c', consumed) ∧
        Abs H' c' vs' (f :: (tl ++ E)) ∧
        flat vs' = d ++ (if consumed then vf.data else []) ∧ Keep c c' ∧
        Same H H' (f :: (tl ++ E)) := by
      rcases List.eq_nil_or_concat vs with hnil | ⟨ws, l, hcat⟩
      · subst hnil
        rw [if_pos (a.nil_iff.2 rfl), ← hd]
        exact appendBoundaryShort_spec he ho _ a w hvf
      · rw [List.concat_eq_append] at hcat
        subst hcat
        have hne : ws ++ [l] ≠ [] := by simp
        rw [if_neg (fun h => hne (a.nil_iff.1 h))]
        have hd' : flat (ws ++ [l]) = d := by
          unfold content at hd; rw [if_neg hne] at hd; exact hd
        rw [← hd']
        exact appendBoundary_spec he ho _ a hvf (w.cons hne)
    have hvt1 : tl.map (view H1) = wt.map some := by
      rw [← hvt]; exact List.map_congr_left fun j hj => s1 j (by simp [hj])
    have hvf1 : view H1 f = some vf := by rw [s1 f (by simp), hvf]
    -- the rest
    obtain ⟨H', c', k2, a2, s2⟩ : ∃ H' c', ((if consumed then unrefO H1 f own else some H1).bind fun H =>
          Chn.appendBlocks H { c1 with size := c1.size + src.size } own
            (if consumed then src.blocks.tail else src.blocks)) = some (H', c') ∧
          Rep H' c' (rest own (f :: tl) E) (d ++ ds) ∧ Same H1 H' (rest own (f :: tl) E) := by
      cases consumed with
      | true =>
        obtain ⟨H2, k2, a2, s2⟩ := a1.dropO own
        simp only [if_true, k2, Option.bind_some, hb, List.tail_cons]
        have hs2 : Same H1 H2 tl := s2.mono fun j hj => by cases own <;> simp [rest, hj]
        have hperm : ∀ x, (tl ++ rest own [f] E).count x = (rest own [f] (tl ++ E)).count x := by
          intro x; cases own <;> simp [rest, List.count_cons]; omega
        have a2' : Abs H2 { c1 with size := c1.size + src.size } vs1 (tl ++ rest own [f] E) :=
          (a2.congr hperm).ext rfl rfl rfl
        obtain ⟨H3, c3, k3, a3, kk3, s3⟩ := a2'.appendBlocks (own := own) (ws := wt)
          (by rw [← hvt1]; exact List.map_congr_left hs2)
        have hperm' : ∀ x, (rest own (f :: tl) E).count x = (rest own tl (rest own [f] E)).count x := by
          intro x; cases own <;> simp [rest, List.count_cons]; omega
        refine ⟨H3, c3, k3, Rep.ofFlat (a3.congr hperm') ?_ ?_, ?_⟩
        · rw [flat_append, hfl, ← hds']; simp
        · rw [kk3.1]
          show c1.size + src.size = _
          rw [kk1.1, List.length_append, hsize, hsize']
        · refine (s2.mono (E := rest own (f :: tl) E) ?_).trans (s3.mono (E := rest own (f :: tl) E) ?_)
            (fun _ h => h) <;> intro j hj <;> cases own <;> simp [rest] at hj ⊢ <;>
              (try exact hj) <;> (try (rcases hj with h | h | h <;> simp [h])) <;> simp [hj]
      | false =>
        simp only [Bool.false_eq_true, if_false, Option.bind_some, hb]
        have a1' : Abs H1 { c1 with size := c1.size + src.size } vs1 (f :: tl ++ E) :=
          a1.ext rfl rfl rfl
        obtain ⟨H3, c3, k3, a3, kk3, s3⟩ := a1'.appendBlocks (own := own) (ws := vf :: wt)
          (by simp [hvf1, hvt1])
        refine ⟨H3, c3, k3, Rep.ofFlat a3 ?_ ?_, s3⟩
        · rw [flat_append, hfl, ← hds']; simp
        · rw [kk3.1]
          show c1.size + src.size = _
          rw [kk1.1, List.length_append, hsize, hsize']
    have hrun : ∀ {α : Type} (g : Heap × Ch × Bool → Option α),
        (if c.blocks = [] then
          (appendBoundaryShort env H c f (src.blocks.length == 1) o).bind g
          else (appendBoundary env H c f (src.blocks.length == 1) o).bind g) = g (H1, c1, consumed) := by
      intro α g
      by_cases h0 : c.blocks = []
      · rw [if_pos h0] at k1 ⊢; rw [k1]; rfl
      · rw [if_neg h0] at k1 ⊢; rw [k1]; rfl
    have hsame : Same H H' E := by
      refine (s1.mono (E := E) fun j hj => by simp [hj]).trans (s2.mono (E := E) ?_) (fun _ h => h)
      intro j hj; cases own <;> simp [rest, hj]
    refine ⟨H', c', dropPassed src own, ?_, ?_, ?_, hsame⟩
    · simp only [Option.bind_eq_bind, hrun]
      cases consumed with
      | true =>
        simp only [if_true] at k2 ⊢
        cases hu : unrefO H1 f own with
        | none => rw [hu] at k2; simp at k2
        | some H2 =>
          rw [hu] at k2
          simp only [Option.bind_some] at k2 ⊢
          rw [k2]; rfl
      | false =>
        simp only [Bool.false_eq_true, if_false, Option.bind_some] at k2 ⊢
        rw [k2]; rfl
    · cases own
      · simpa [dropPassed, truncate, rest] using a2
      · simpa [dropPassed, rest, hb] using a2
    · cases own
      · exact ⟨[], rs0.dropped a2⟩
      · refine ⟨rfl, rs0.other (d' := d ++ ds) ?_ ?_⟩
        · simpa [rest, hb, dropPassed] using a2
        · rw [hE]; exact s1.trans s2 (fun _ h => h)

end Riegeli.Chn

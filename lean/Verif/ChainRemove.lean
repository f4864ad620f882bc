import Verif.ChainPrependChain
/-!
# Chain: removing, clearing, assigning
-/
namespace Riegeli.Chn

/-! ### A part of a block -/

theorem subBlock_spec {H : Heap} {hs : List Nat} {id off len : Nat} (g : Good H (id :: hs)) {v : View}
    (hv : view H id = some v) (hl : off + len ≤ v.data.length) :
    ∃ H' b v', subBlock H id off len = some (H', b) ∧ Good H' (b :: hs) ∧ Same H H' hs ∧
      view H' b = some v' ∧ v'.data = slice v.data off len := by
  obtain ⟨r, h1, h2, h3⟩ := g.view_size (List.mem_cons_self ..) hv
  unfold subBlock
  rw [get_of h1 h2]
  simp only [Option.bind_eq_bind, Option.bind_some]
  have whole : len = v.data.length → slice v.data off len = v.data := by
    intro h
    have : off = 0 := by omega
    subst this
    simp [slice, h]
  cases hb : r.body with
  | sub o off' len' =>
    simp only
    obtain ⟨s, s1, s2, s3, s4⟩ := g.owner_live h1 h2 hb
    obtain ⟨w, w1, w2, _⟩ := view_live g o s s1 s2
    have hvd : v.data = slice w.data off' len' := by
      rw [view_eq, h1] at hv
      simp only [h2, if_false, hb, s3, if_true, w1, Option.map_some, Option.some.injEq] at hv
      rw [← hv]
    obtain ⟨H1, k1, g1, e1⟩ := ref_live g s1 s2
    have g1' : Good H1 (id :: (o :: hs)) := g1.congr fun x => by simp [List.count_cons]; omega
    obtain ⟨H2, k2, g2, e2⟩ := unref_spec g1'
    have hw2 : view H2 o = some w := by
      rw [e2 o (by simp), e1 o ⟨s, s1, s2⟩, w1]
    have hsame : Same H H2 hs := fun j hj => by
      rw [e2 j (by simp [hj]), e1 j (g.live (by simp [hj]))]
    have hll : v.data.length ≤ len' := by rw [hvd]; simp [slice]; omega
    have hsz : v.data.length = len' := by rw [h3, hb]; rfl
    simp only [k1, k2, hw2, Option.bind_some]
    have hdata : slice w.data (off' + off) len = slice v.data off len := by
      rw [hvd]
      unfold slice
      rw [List.drop_take, List.take_take, List.drop_drop]
      congr 1; omega
    by_cases hlen : len = w.data.length
    · rw [if_pos hlen]
      refine ⟨H2, o, w, rfl, g2, hsame, hw2, ?_⟩
      rw [← hdata]
      have : off' + off = 0 := by omega
      rw [this, hlen]; simp [slice]
    · rw [if_neg hlen]
      obtain ⟨H3, b, m1, m2, m3, m4⟩ := newSub_spec (off := off' + off) (len := len) g2 hw2 (by omega)
      exact ⟨H3, b, _, m1, m2, hsame.trans m3 (fun _ h => h), m4, hdata⟩
  | internal mem beg len' =>
    simp only
    by_cases he : len = r.body.size
    · rw [hb] at he
      rw [if_pos he]
      refine ⟨H, id, v, rfl, g, Same.refl _ _, hv, ?_⟩
      rw [whole (by rw [h3, hb]; exact he)]
    · rw [hb] at he
      rw [if_neg he]
      obtain ⟨H', b, k1, k2, k3, k4⟩ := newSub_spec g hv hl
      exact ⟨H', b, _, k1, k2, k3, k4, rfl⟩
  | external d =>
    simp only
    by_cases he : len = r.body.size
    · rw [hb] at he
      rw [if_pos he]
      refine ⟨H, id, v, rfl, g, Same.refl _ _, hv, ?_⟩
      rw [whole (by rw [h3, hb]; exact he)]
    · rw [hb] at he
      rw [if_neg he]
      obtain ⟨H', b, k1, k2, k3, k4⟩ := newSub_spec g hv hl
      exact ⟨H', b, _, k1, k2, k3, k4, rfl⟩

theorem removeSuffixLoop_spec {E : List Nat} : ∀ (fuel : Nat) {H : Heap} {c : Ch} {vs : List View}
    {n : Nat}, Abs H c vs E → vs.length ≤ fuel → 0 < n → n ≤ (flat vs).length →
    ∃ H' c' vs' v' n', removeSuffixLoop H c n fuel = some (H', c', n') ∧ Abs H' c' (vs' ++ [v']) E ∧
      0 < n' ∧ n' ≤ v'.data.length ∧
      (flat vs).take ((flat vs).length - n) = flat vs' ++ v'.data.take (v'.data.length - n') ∧
      Keep c c' ∧ Same H H' E := by
  intro fuel
  induction fuel with
  | zero =>
    intro H c vs n a hf h0 hn
    have : vs = [] := by simpa using hf
    subst this
    simp at hn; omega
  | succ fuel ih =>
    intro H c vs n a hf h0 hn
    rcases List.eq_nil_or_concat vs with hnil | ⟨us, v, hcat⟩
    · subst hnil; simp at hn; omega
    · rw [List.concat_eq_append] at hcat
      subst hcat
      obtain ⟨ids, l, g1, g2, g3, g4, g5, g6⟩ := a.last
      unfold removeSuffixLoop
      simp only [g2, g3, Option.bind_eq_bind, Option.bind_some]
      by_cases hle : n ≤ v.data.length
      · rw [if_pos hle]
        refine ⟨H, c, us, v, n, rfl, a, h0, hle, ?_, Keep.refl c, Same.refl _ _⟩
        simp only [flat_append, flat_cons, flat_nil, List.append_nil, List.length_append]
        rw [List.take_append, List.take_of_length_le (by omega)]
        congr 2; omega
      · rw [if_neg hle]
        obtain ⟨c2, b, m1, a2, _, kk, _⟩ := a.popBack
        obtain ⟨H3, m2, a3, s3⟩ := a2.unref
        simp only [m1, m2, Option.bind_some]
        simp only [flat_append, flat_cons, flat_nil, List.append_nil, List.length_append] at hn ⊢
        obtain ⟨H4, c4, vs', v', n', k1, k2, k3, k4, k5, k6, k7⟩ := ih (n := n - v.data.length) a3
          (by simp at hf; omega) (by omega) (by omega)
        refine ⟨H4, c4, vs', v', n', k1, k2, k3, k4, ?_, kk.trans k6, s3.trans k7 (fun _ h => h)⟩
        rw [← k5, List.take_append_of_le_length (by omega)]
        congr 1; omega

theorem Rep.unref {H : Heap} {c : Ch} {b : Nat} {E : List Nat} {d : Bytes} (r : Rep H c (b :: E) d) :
    ∃ H', Chn.unref H b = some H' ∧ Rep H' c E d ∧ Same H H' E := by
  obtain ⟨vs, a, w, hd⟩ := r
  obtain ⟨H', h1, h2, h3⟩ := a.unref
  exact ⟨H', h1, ⟨vs, h2, w, hd⟩, h3⟩

theorem Rep.heap {H H' : Heap} {c : Ch} {E E' : List Nat} {d : Bytes} (r : Rep H c E d)
    (g : Good H' (c.blocks ++ E')) (s : Same H H' c.blocks) : Rep H' c E' d := by
  obtain ⟨vs, a, w, hd⟩ := r
  exact ⟨vs, a.step g s, w, hd⟩

theorem removeSuffixLast_spec {env : Env} (he : env.Ok) {H : Heap} {c : Ch} {vs : List View}
    {v : View} {E : List Nat} {n : Nat} {o : Opts} (ho : o.Ok) (a : Abs H c (vs ++ [v]) E)
    (h0 : 0 < n) (hn : n ≤ v.data.length)
    (hs : c.size = (flat vs ++ v.data.take (v.data.length - n)).length) (hm : c.size ≤ maxSize) :
    ∃ H' c', removeSuffixLast env H c n o = some (H', c') ∧
      Rep H' c' E (flat vs ++ v.data.take (v.data.length - n)) ∧ Same H H' E := by
  obtain ⟨ids, l, g1, g2, g3, g4, g5, g6⟩ := a.last
  have hmc : maxCap = 2 ^ 63 - 1 := rfl
  have hmb : minBlock = 512 := rfl
  have hms : maxShort = 16 := rfl
  obtain ⟨H1, done, k1, k2, k3, k4, k5⟩ := tryRemoveSuffix_spec g5 g3 hn
  unfold removeSuffixLast
  simp only [g2, k1, Option.bind_eq_bind, Option.bind_some]
  cases done with
  | true =>
    have hw := k4 rfl
    have a1 := a.modLast g1 k2 k3 hw
    have s1 : Same H H1 E := k3.mono fun j hj => by simp [hj]
    simp only [if_true, hw, Option.bind_some]
    have r1 : Rep H1 c E (flat vs ++ v.data.take (v.data.length - n)) :=
      Rep.ofFlat a1 (by simp) hs
    rw [g1, List.dropLast_concat]
    rcases List.eq_nil_or_concat vs with hnil | ⟨us, u, hcat⟩
    · subst hnil
      have : ids = [] := by simpa using g4
      subst this
      simp only [List.getLast?_nil]
      exact ⟨H1, c, rfl, r1, s1⟩
    · rw [List.concat_eq_append] at hcat
      subst hcat
      have a0 := a1.popBack
      obtain ⟨c2, last, m1, a2, v2, kk2, _, e2, e2'⟩ := a0
      have hids : c2.blocks = ids := by rw [e2, g1, List.dropLast_concat]
      obtain ⟨ids', p, p1, p2, p3, p4, p5, p6⟩ := a2.last
      have hp : ids.getLast? = some p := by rw [← hids]; exact p2
      simp only [hp, p3, m1, Option.bind_some]
      cases ht : View.tiny ⟨v.data.take (v.data.length - n), v.cap⟩ && u.tiny with
      | false =>
        simp only [Bool.false_eq_true, if_false]
        exact ⟨H1, c, rfl, r1, s1⟩
      | true =>
        simp only [Bool.and_eq_true, view_tiny] at ht
        simp only [if_true]
        cases hemp : View.empty ⟨v.data.take (v.data.length - n), v.cap⟩ with
        | true =>
          simp only [if_true]
          obtain ⟨H3, m2, a3, s3⟩ := a2.unref
          simp only [m2, Option.bind_some]
          have hnil : v.data.take (v.data.length - n) = [] := by simpa [View.empty] using hemp
          refine ⟨H3, c2, rfl, Rep.ofFlat a3 (by simp [hnil]) ?_, s1.trans s3 (fun _ h => h)⟩
          rw [kk2.1, hs]
        | false =>
          have hnil : v.data.take (v.data.length - n) ≠ [] := by
            intro h; rw [h] at hemp; cases hemp
          simp only [Bool.false_eq_true, if_false]
          generalize hx : v.data.take (v.data.length - n) = x at *
          have hxl : x.length ≠ 0 := by simpa using hnil
          rw [if_pos (by omega)]
          obtain ⟨cap, m2, q1, q2⟩ := newBlockCapacity_spec (c := c2) (replaced := u.data.length + x.length)
            (minLen := 0) (rec := 0) ho (by rw [kk2.1, hs]; simp) (by omega)
          obtain ⟨H4, nb, H5, H6, c7, old, H8, y, q3, q4, q5, q6, q7, a8, hy, kk8, s8⟩ :=
            a2.mergeLast he (src := x) (cap := cap) (by omega) (by omega) q2
          obtain ⟨H9, q8, a9, s9⟩ := a8.unref
          simp only [m2, q3, q4, q5, q6, q7, q8, Option.bind_some]
          refine ⟨H9, c7, rfl, Rep.ofFlat a9 (by simp [hy]) ?_, ?_⟩
          · rw [kk8.1, kk2.1, hs]
          · exact (s1.trans (s8.mono (E := E) fun j hj => by simp [hj]) (fun _ h => h)).trans s9
              (fun _ h => h)
  | false =>
    have hH := k5 rfl
    subst hH
    simp only [Bool.false_eq_true, if_false]
    obtain ⟨c2, last, m1, a2, v2, kk2, _⟩ := a.popBack
    simp only [m1, v2, Option.bind_some]
    by_cases hnv : n = v.data.length
    · rw [if_pos hnv]
      obtain ⟨H3, m2, a3, s3⟩ := a2.unref
      simp only [m2, Option.bind_some]
      refine ⟨H3, c2, rfl, Rep.ofFlat a3 (by simp [hnv]) ?_, s3⟩
      rw [kk2.1, hs]
    · rw [if_neg hnv]
      generalize hx : v.data.take (v.data.length - n) = x at *
      have hxl : x.length = v.data.length - n := by rw [← hx]; simp
      have hsz2 : c2.size = (flat vs).length + x.length := by rw [kk2.1, hs]; simp
      rw [if_neg (by omega)]
      have r2 : Rep H1 { c2 with size := c2.size - x.length } (last :: E) (flat vs) :=
        Rep.ofFlat (a2.ext rfl rfl rfl) rfl (by show c2.size - x.length = _; omega)
      have hms2 : (flat vs).length + x.length ≤ maxSize := by rw [hs] at hm; simpa using hm
      split
      · obtain ⟨H3, c3, m2, r3, s3⟩ := appendBytes_spec he ho (src := x) r2 hms2
        obtain ⟨H4, m3, r4, s4⟩ := r3.unref
        simp only [m2, m3, Option.bind_some]
        exact ⟨H4, c3, rfl, r4, (s3.mono (E := E) fun j hj => by simp [hj]).trans s4 (fun _ h => h)⟩
      · obtain ⟨H3, b, v3, m2, g3', s3, hv3, hd3⟩ := subBlock_spec a2.held v2 (off := 0)
          (len := x.length) (by omega)
        have hd3' : v3.data = x := by rw [hd3, ← hx]; simp [slice]
        have r3 : Rep H3 { c2 with size := c2.size - x.length } (b :: E) (flat vs) :=
          r2.heap (g3'.congr fun j => by simp [List.count_cons]; omega)
            (s3.mono fun j hj => by simp only [List.mem_append]; exact .inl hj)
        obtain ⟨H4, c4, m3, r4, s4⟩ := appendRawBlock_spec he ho .pass r3 hv3
          (fun h => by rw [hd3'] at h; rw [h] at hxl; simp at hxl; omega) (by rw [hd3']; exact hms2)
        simp only [m2, m3, Option.bind_some]
        rw [hd3'] at r4
        exact ⟨H4, c4, rfl, r4, (s3.mono (E := E) fun j hj => by simp [hj]).trans s4 (fun _ h => h)⟩

/-- `RemoveSuffix()`. -/
theorem removeSuffix_spec {env : Env} (he : env.Ok) {H : Heap} {c : Ch} {E : List Nat} {d : Bytes}
    {n : Nat} {o : Opts} (ho : o.Ok) (r : Rep H c E d) (hn : n ≤ d.length) (hm : d.length ≤ maxSize) :
    ∃ H' c', removeSuffix env H c n o = some (H', c') ∧ Rep H' c' E (d.take (d.length - n)) ∧
      Same H H' E := by
  have hsize := r.size
  unfold removeSuffix
  by_cases h0 : n = 0
  · subst h0
    rw [if_pos rfl]
    exact ⟨H, c, rfl, by simpa using r, Same.refl _ _⟩
  · rw [if_neg h0, if_neg (by omega)]
    obtain ⟨vs, a, w, hd⟩ := r
    by_cases hv : vs = []
    · subst hv
      rw [if_pos (a.nil_iff.2 rfl)]
      obtain ⟨w1, w2⟩ := w.nil rfl
      refine ⟨H, _, rfl, Rep.ofShort (a.ext rfl rfl rfl) ?_ ?_ ?_, Same.refl _ _⟩
      · show c.size - n ≤ _; omega
      · intro h; show c.size - n = 0; rw [w2 h]; simp
      · show c.short.take (c.size - n) = _
        rw [← hd, content_nil, List.take_take]
        congr 1; rw [← content_nil, hd]; omega
    · rw [if_neg (fun h => hv (a.nil_iff.1 h))]
      have hd' : flat vs = d := by
        unfold content at hd; rw [if_neg hv] at hd; exact hd
      have a' : Abs H { c with size := c.size - n } vs E := a.ext rfl rfl rfl
      obtain ⟨H1, c1, vs1, v1, n1, k1, a1, k2, k3, k4, k5, s1⟩ := removeSuffixLoop_spec c.blocks.length
        (n := n) a' (by rw [a.length]; exact Nat.le_refl _) (by omega) (by rw [hd']; omega)
      have hsz1 : c1.size = c.size - n := k5.1
      rw [hd'] at k4
      obtain ⟨H2, c2, m1, r2, s2⟩ := removeSuffixLast_spec he ho a1 k2 k3
        (by rw [← k4, hsz1]; simp; omega) (by omega)
      simp only [k1, m1, Option.bind_eq_bind, Option.bind_some]
      exact ⟨H2, c2, rfl, by rw [k4]; exact r2, s1.trans s2 (fun _ h => h)⟩

theorem removePrefixLoop_spec {E : List Nat} : ∀ (fuel : Nat) {H : Heap} {c : Ch} {vs : List View}
    {n : Nat}, Abs H c vs E → vs.length ≤ fuel → 0 < n → n ≤ (flat vs).length →
    ∃ H' c' vs' v' n', removePrefixLoop H c n fuel = some (H', c', n') ∧ Abs H' c' (v' :: vs') E ∧
      0 < n' ∧ n' ≤ v'.data.length ∧
      (flat vs).drop n = v'.data.drop n' ++ flat vs' ∧
      Keep c c' ∧ Same H H' E := by
  intro fuel
  induction fuel with
  | zero =>
    intro H c vs n a hf h0 hn
    have : vs = [] := by simpa using hf
    subst this
    simp at hn; omega
  | succ fuel ih =>
    intro H c vs n a hf h0 hn
    cases vs with
    | nil => simp at hn; omega
    | cons v us =>
      obtain ⟨ids, l, g1, g2, g3, g4, g5, g6⟩ := a.first
      unfold removePrefixLoop
      simp only [g2, g3, Option.bind_eq_bind, Option.bind_some]
      by_cases hle : n ≤ v.data.length
      · rw [if_pos hle]
        refine ⟨H, c, us, v, n, rfl, a, h0, hle, ?_, Keep.refl c, Same.refl _ _⟩
        simp only [flat_cons]
        rw [List.drop_append_of_le_length hle]
      · rw [if_neg hle]
        obtain ⟨c2, b, m1, a2, _, kk, _⟩ := a.popFront
        obtain ⟨H3, m2, a3, s3⟩ := a2.unref
        simp only [m1, m2, Option.bind_some]
        simp only [flat_cons, List.length_append] at hn ⊢
        obtain ⟨H4, c4, vs', v', n', k1, k2, k3, k4, k5, k6, k7⟩ := ih (n := n - v.data.length) a3
          (by simp at hf; omega) (by omega) (by omega)
        refine ⟨H4, c4, vs', v', n', k1, k2, k3, k4, ?_, kk.trans k6, s3.trans k7 (fun _ h => h)⟩
        rw [← k5, List.drop_append, List.drop_of_length_le (by omega), List.nil_append]

theorem removePrefixFirst_spec {env : Env} (he : env.Ok) {H : Heap} {c : Ch} {vs : List View}
    {v : View} {E : List Nat} {n : Nat} {o : Opts} (ho : o.Ok) (a : Abs H c (v :: vs) E)
    (h0 : 0 < n) (hn : n ≤ v.data.length)
    (hs : c.size = (v.data.drop n ++ flat vs).length) (hm : c.size ≤ maxSize) :
    ∃ H' c', removePrefixFirst env H c n o = some (H', c') ∧
      Rep H' c' E (v.data.drop n ++ flat vs) ∧ Same H H' E := by
  obtain ⟨ids, l, g1, g2, g3, g4, g5, g6⟩ := a.first
  have hmc : maxCap = 2 ^ 63 - 1 := rfl
  have hmb : minBlock = 512 := rfl
  have hms : maxShort = 16 := rfl
  obtain ⟨H1, done, k1, k2, k3, k4, k5⟩ := tryRemovePrefix_spec g5 g3 hn
  unfold removePrefixFirst
  simp only [g2, k1, Option.bind_eq_bind, Option.bind_some]
  cases done with
  | true =>
    have hw := k4 rfl
    obtain ⟨c1, kr, a1, kk1, e1⟩ := a.modFirst g1 k2 k3 hw
    have s1 : Same H H1 E := k3.mono fun j hj => by simp [hj]
    simp only [if_true, hw, kr, Option.bind_some]
    have r1 : Rep H1 c1 E (v.data.drop n ++ flat vs) :=
      Rep.ofFlat a1 (by simp) (by rw [kk1.1, hs])
    rw [e1, g1, List.tail_cons]
    cases vs with
    | nil =>
      have : ids = [] := by simpa using g4
      subst this
      simp only [List.head?_nil]
      exact ⟨H1, c1, rfl, r1, s1⟩
    | cons u us =>
      have a0 := a1.popFront
      obtain ⟨c2, last, m1, a2, v2, kk2, _, e2, e2'⟩ := a0
      have hids : c2.blocks = ids := by rw [e2, e1, g1, List.tail_cons]
      obtain ⟨ids', p, p1, p2, p3, p4, p5, p6⟩ := a2.first
      have hp : ids.head? = some p := by rw [← hids]; exact p2
      simp only [hp, p3, m1, Option.bind_some]
      cases ht : View.tiny ⟨v.data.drop n, v.cap⟩ && u.tiny with
      | false =>
        simp only [Bool.false_eq_true, if_false]
        exact ⟨H1, c1, rfl, r1, s1⟩
      | true =>
        simp only [Bool.and_eq_true, view_tiny] at ht
        simp only [if_true]
        cases hemp : View.empty ⟨v.data.drop n, v.cap⟩ with
        | true =>
          simp only [if_true]
          obtain ⟨H3, m2, a3, s3⟩ := a2.unref
          simp only [m2, Option.bind_some]
          have hnil : v.data.drop n = [] := by simpa [View.empty] using hemp
          refine ⟨H3, c2, rfl, Rep.ofFlat a3 (by simp [hnil]) ?_, s1.trans s3 (fun _ h => h)⟩
          rw [kk2.1, kk1.1, hs]
        | false =>
          have hnil : v.data.drop n ≠ [] := by
            intro h; rw [h] at hemp; cases hemp
          simp only [Bool.false_eq_true, if_false]
          generalize hx : v.data.drop n = x at *
          have hxl : x.length ≠ 0 := by simpa using hnil
          rw [if_pos (by omega)]
          obtain ⟨cap, m2, q1, q2⟩ := newBlockCapacity_spec (c := c2) (replaced := x.length + u.data.length)
            (minLen := 0) (rec := 0) ho (by rw [kk2.1, kk1.1, hs]; simp) (by omega)
          obtain ⟨H4, nb, H5, H6, c7, old, H8, y, q3, q4, q5, q6, q7, a8, hy, kk8, s8⟩ :=
            a2.mergeFirst he (src := x) (cap := cap) (by omega) (by omega) q2
          obtain ⟨H9, q8, a9, s9⟩ := a8.unref
          simp only [m2, q3, q4, q5, q6, q7, q8, Option.bind_some]
          refine ⟨H9, c7, rfl, Rep.ofFlat a9 (by simp [hy]) ?_, ?_⟩
          · rw [kk8.1, kk2.1, kk1.1, hs]
          · exact (s1.trans (s8.mono (E := E) fun j hj => by simp [hj]) (fun _ h => h)).trans s9
              (fun _ h => h)
  | false =>
    have hH := k5 rfl
    subst hH
    simp only [Bool.false_eq_true, if_false]
    obtain ⟨c2, last, m1, a2, v2, kk2, _⟩ := a.popFront
    simp only [m1, v2, Option.bind_some]
    by_cases hnv : n = v.data.length
    · rw [if_pos hnv]
      obtain ⟨H3, m2, a3, s3⟩ := a2.unref
      simp only [m2, Option.bind_some]
      refine ⟨H3, c2, rfl, Rep.ofFlat a3 (by simp [hnv]) ?_, s3⟩
      rw [kk2.1, hs]
    · rw [if_neg hnv]
      generalize hx : v.data.drop n = x at *
      have hxl : x.length = v.data.length - n := by rw [← hx]; simp
      have hsz2 : c2.size = (flat vs).length + x.length := by rw [kk2.1, hs]; simp; omega
      rw [if_neg (by omega)]
      have r2 : Rep H1 { c2 with size := c2.size - x.length } (last :: E) (flat vs) :=
        Rep.ofFlat (a2.ext rfl rfl rfl) rfl (by show c2.size - x.length = _; omega)
      have hms2 : (flat vs).length + x.length ≤ maxSize := by rw [hs] at hm; simp at hm; omega
      split
      · obtain ⟨H3, c3, m2, r3, s3⟩ := prependBytes_spec he ho (src := x) r2 hms2
        obtain ⟨H4, m3, r4, s4⟩ := r3.unref
        simp only [m2, m3, Option.bind_some]
        exact ⟨H4, c3, rfl, r4, (s3.mono (E := E) fun j hj => by simp [hj]).trans s4 (fun _ h => h)⟩
      · obtain ⟨H3, b, v3, m2, g3', s3, hv3, hd3⟩ := subBlock_spec a2.held v2 (off := n)
          (len := x.length) (by omega)
        have hd3' : v3.data = x := by rw [hd3, hxl, ← hx]; unfold slice; exact List.take_of_length_le (by simp)
        have r3 : Rep H3 { c2 with size := c2.size - x.length } (b :: E) (flat vs) :=
          r2.heap (g3'.congr fun j => by simp [List.count_cons]; omega)
            (s3.mono fun j hj => by simp only [List.mem_append]; exact .inl hj)
        obtain ⟨H4, c4, m3, r4, s4⟩ := prependRawBlock_spec he ho .pass r3 hv3
          (fun h => by rw [hd3'] at h; rw [h] at hxl; simp at hxl; omega) (by rw [hd3']; exact hms2)
        simp only [m2, m3, Option.bind_some]
        rw [hd3'] at r4
        exact ⟨H4, c4, rfl, r4, (s3.mono (E := E) fun j hj => by simp [hj]).trans s4 (fun _ h => h)⟩

/-- `RemovePrefix()`. -/
theorem removePrefix_spec {env : Env} (he : env.Ok) {H : Heap} {c : Ch} {E : List Nat} {d : Bytes}
    {n : Nat} {o : Opts} (ho : o.Ok) (r : Rep H c E d) (hn : n ≤ d.length) (hm : d.length ≤ maxSize) :
    ∃ H' c', removePrefix env H c n o = some (H', c') ∧ Rep H' c' E (d.drop n) ∧
      Same H H' E := by
  have hsize := r.size
  unfold removePrefix
  by_cases h0 : n = 0
  · subst h0
    rw [if_pos rfl]
    exact ⟨H, c, rfl, by simpa using r, Same.refl _ _⟩
  · rw [if_neg h0, if_neg (by omega)]
    obtain ⟨vs, a, w, hd⟩ := r
    by_cases hv : vs = []
    · subst hv
      simp only [a.nil_iff.2 rfl, if_true]
      obtain ⟨w1, w2⟩ := w.nil rfl
      have a' : Abs H { c with size := c.size - n } [] E := a.ext rfl rfl rfl
      have w' : Wf { c with size := c.size - n } [] :=
        ⟨fun _ => ⟨by show c.size - n ≤ _; omega, fun h => by show c.size - n = 0; rw [w2 h]; simp⟩,
          fun h => absurd rfl h⟩
      have h16 := short16_some a' w'
      have hms : maxShort = 16 := rfl
      have hsh := a.short
      obtain ⟨mem', m1, m2, m3⟩ := writeMem_begin (mem := c.short) (k := 0)
        (bs := slice c.short n (c.size - n)) (by simp [slice]; omega)
      have hb : c.blocks = [] := a.nil_iff.2 rfl
      rw [hb] at h16
      have m1' : writeMem c.short 0 (slice c.short n (c.size - n)) = some mem' := m1
      simp only [h16, m1', Option.bind_eq_bind, Option.bind_some]
      refine ⟨H, _, rfl, Rep.ofShort (a.ext ?_ rfl ?_) ?_ ?_ ?_, Same.refl _ _⟩
      · exact hb.symm
      · exact m2
      · show c.size - n ≤ _; omega
      · intro h; show c.size - n = 0; rw [w2 h]; simp
      · show mem'.take (c.size - n) = _
        have hl : (slice c.short n (c.size - n)).length = c.size - n := by simp [slice]; omega
        have h9 : mem'.take (c.size - n) = slice c.short n (c.size - n) := by
          rw [hl] at m3
          simpa [slice] using m3
        rw [h9, ← hd, content_nil, List.drop_take]
        rfl
    · rw [if_neg (fun h => hv (a.nil_iff.1 h))]
      have hd' : flat vs = d := by
        unfold content at hd; rw [if_neg hv] at hd; exact hd
      have a' : Abs H { c with size := c.size - n } vs E := a.ext rfl rfl rfl
      obtain ⟨H1, c1, vs1, v1, n1, k1, a1, k2, k3, k4, k5, s1⟩ := removePrefixLoop_spec c.blocks.length
        (n := n) a' (by rw [a.length]; exact Nat.le_refl _) (by omega) (by rw [hd']; omega)
      have hsz1 : c1.size = c.size - n := k5.1
      rw [hd'] at k4
      obtain ⟨H2, c2, m1, r2, s2⟩ := removePrefixFirst_spec he ho a1 k2 k3
        (by rw [← k4, hsz1]; simp; omega) (by omega)
      simp only [k1, m1, Option.bind_eq_bind, Option.bind_some]
      exact ⟨H2, c2, rfl, by rw [k4]; exact r2, s1.trans s2 (fun _ h => h)⟩

end Riegeli.Chn

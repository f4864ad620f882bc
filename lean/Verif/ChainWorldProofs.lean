import Verif.ChainRest
import Verif.ChainWorld
/-!
# Programs using chains: every call has the expected effect
-/
namespace Riegeli.Chn

/-- `Rep` without the references. -/
def Loc (H : Heap) (c : Ch) (d : Bytes) : Prop :=
  ∃ vs, c.blocks.map (view H) = vs.map some ∧ ArrOk c.arr vs ∧ c.short.length = maxShort ∧
    Wf c vs ∧ content c vs = d

theorem Rep.loc {H : Heap} {c : Ch} {E : List Nat} {d : Bytes} (r : Rep H c E d) : Loc H c d := by
  obtain ⟨vs, a, w, hd⟩ := r
  exact ⟨vs, a.views, a.arr, a.short, w, hd⟩

theorem Rep.good {H : Heap} {c : Ch} {E : List Nat} {d : Bytes} (r : Rep H c E d) :
    Good H (c.blocks ++ E) := by
  obtain ⟨vs, a, w, hd⟩ := r
  exact a.good

theorem Loc.rep {H : Heap} {c : Ch} {E : List Nat} {d : Bytes} (l : Loc H c d)
    (g : Good H (c.blocks ++ E)) : Rep H c E d := by
  obtain ⟨vs, h1, h2, h3, h4, h5⟩ := l
  exact ⟨vs, ⟨g, h1, h2, h3⟩, h4, h5⟩

theorem Loc.same {H H' : Heap} {c : Ch} {d : Bytes} (l : Loc H c d) (s : Same H H' c.blocks) :
    Loc H' c d := by
  obtain ⟨vs, h1, h2, h3, h4, h5⟩ := l
  refine ⟨vs, ?_, h2, h3, h4, h5⟩
  rw [← h1]
  exact List.map_congr_left fun j hj => s j hj

/-- All references from chains. -/
def refsOf (cs : List Ch) : List Nat := cs.flatMap (·.blocks)

theorem count_refsOf_set : ∀ (cs : List Ch) {i : Nat} {c c' : Ch} (x : Nat), cs[i]? = some c →
    (refsOf (cs.set i c')).count x + c.blocks.count x = (refsOf cs).count x + c'.blocks.count x
  | [], i, c, c', x, h => by simp at h
  | a :: cs, 0, c, c', x, h => by
    simp at h; subst h
    simp [refsOf]; omega
  | a :: cs, i + 1, c, c', x, h => by
    have := count_refsOf_set cs (c' := c') x (by simpa using h)
    simp [refsOf] at this ⊢; omega

theorem count_refsOf_erase : ∀ (cs : List Ch) {i : Nat} {c : Ch} (x : Nat), cs[i]? = some c →
    (refsOf (cs.eraseIdx i)).count x + c.blocks.count x = (refsOf cs).count x
  | [], i, c, x, h => by simp at h
  | a :: cs, 0, c, x, h => by
    simp at h; subst h
    simp [refsOf]; omega
  | a :: cs, i + 1, c, x, h => by
    have := count_refsOf_erase cs x (by simpa using h)
    simp [refsOf] at this ⊢; omega

theorem count_erase : ∀ (l : List Nat) {i a : Nat} (x : Nat), l[i]? = some a →
    (l.eraseIdx i).count x + [a].count x = l.count x
  | [], i, a, x, h => by simp at h
  | b :: l, 0, a, x, h => by
    simp at h; subst h
    simp [List.count_cons]
  | b :: l, i + 1, a, x, h => by
    have := count_erase l x (by simpa using h)
    simp [List.count_cons] at this ⊢; omega

theorem mem_refsOf {cs : List Ch} {i : Nat} {c : Ch} (h : cs[i]? = some c) {j : Nat}
    (hj : j ∈ c.blocks) : j ∈ refsOf cs :=
  List.mem_flatMap.2 ⟨c, List.mem_of_getElem? h, hj⟩

/-- The references from chains other than chain `i`. -/
def others (cs : List Ch) (i : Nat) : List Nat := refsOf (cs.set i {})

theorem count_others {cs : List Ch} {i : Nat} {c : Ch} (x : Nat) (h : cs[i]? = some c) :
    (others cs i).count x + c.blocks.count x = (refsOf cs).count x := by
  have := count_refsOf_set cs (c' := {}) x h
  simpa [others] using this

theorem mem_others {cs : List Ch} {i k : Nat} {c : Ch} (h : cs[k]? = some c) (hk : k ≠ i) {j : Nat}
    (hj : j ∈ c.blocks) : j ∈ others cs i := by
  refine mem_refsOf (i := k) ?_ hj
  rw [List.getElem?_set_ne (Ne.symm hk), h]

/-- The data of a block. -/
def dataOf (H : Heap) (id : Nat) : Option Bytes := (view H id).map (·.data)

/-- The program has the values `s`, and the heap is consistent. -/
structure Inv (w : World) (s : Values) : Prop where
  good : Good w.heap (refsOf w.chains ++ w.held)
  len : w.chains.length = s.chains.length
  chains : ∀ (i : Nat) c d, w.chains[i]? = some c → s.chains[i]? = some d → Loc w.heap c d
  held : w.held.map (dataOf w.heap) = s.held.map some

theorem dataOf_same {H H' : Heap} {ids : List Nat} {ds : List Bytes} (s : Same H H' ids)
    (h : ids.map (dataOf H) = ds.map some) : ids.map (dataOf H') = ds.map some := by
  rw [← h]
  exact List.map_congr_left fun j hj => by unfold dataOf; rw [s j hj]

theorem Inv.start : Inv {} {} :=
  ⟨⟨by simp [refsOf], by simp, by simp⟩, rfl, by simp, rfl⟩

theorem Inv.lookup {w : World} {s : Values} (v : Inv w s) {i : Nat} (hi : i < s.chains.length) :
    ∃ c, w.chains[i]? = some c ∧ s.chains[i]? = some (s.at i) ∧
      Rep w.heap c (others w.chains i ++ w.held) (s.at i) := by
  have hi' : i < w.chains.length := by rw [v.len]; exact hi
  have h1 : w.chains[i]? = some w.chains[i] := List.getElem?_eq_getElem hi'
  have h2 : s.chains[i]? = some (s.at i) := by
    rw [List.getElem?_eq_getElem hi]
    simp [Values.at, List.getD, hi]
  refine ⟨_, h1, h2, (v.chains i _ _ h1 h2).rep (v.good.congr fun x => ?_)⟩
  have := count_others x h1
  simp only [List.count_append]; omega

theorem Inv.heldAt {w : World} {s : Values} (v : Inv w s) {h : Nat} (hh : h < s.held.length) :
    ∃ id x, w.held[h]? = some id ∧ view w.heap id = some x ∧ x.data = s.held.getD h [] ∧
      s.held[h]? = some (s.held.getD h []) := by
  have hl := congrArg List.length v.held
  simp only [List.length_map] at hl
  have h0 : h < w.held.length := by omega
  have h2 : s.held[h]? = some (s.held.getD h []) := by
    rw [List.getElem?_eq_getElem hh]
    simp [List.getD, hh]
  have h3 := congrArg (fun l => l[h]?) v.held
  simp only [List.getElem?_map, List.getElem?_eq_getElem h0, h2, Option.map_some, Option.some.injEq]
    at h3
  unfold dataOf at h3
  cases hx : view w.heap w.held[h] with
  | none => rw [hx] at h3; simp at h3
  | some x =>
    rw [hx] at h3
    exact ⟨_, x, List.getElem?_eq_getElem h0, hx, by simpa using h3, h2⟩

/-- Chain `i` was changed, maybe together with the blocks held. -/
theorem Inv.put {w : World} {s : Values} {i : Nat} {c c' : Ch} {H' : Heap} {d' : Bytes}
    {held' : List Nat} {sh' : List Bytes} (v : Inv w s) (hc : w.chains[i]? = some c)
    (r : Rep H' c' (others w.chains i ++ held') d') (sm : Same w.heap H' (others w.chains i))
    (hh : held'.map (dataOf H') = sh'.map some) :
    Inv ⟨H', w.chains.set i c', held'⟩ ⟨s.chains.set i d', sh'⟩ := by
  refine ⟨r.good.congr fun x => ?_, by simp [v.len], ?_, hh⟩
  · have h1 := count_others x hc
    have h2 := count_refsOf_set w.chains (c' := c') x hc
    simp only [List.count_append]; omega
  · intro k c1 d1 h1 h2
    simp only at h1 h2
    by_cases hk : k = i
    · subst hk
      have hl := (List.getElem?_eq_some_iff.1 hc).1
      have hl2 : k < s.chains.length := by rw [← v.len]; exact hl
      rw [List.getElem?_set_self hl] at h1
      rw [List.getElem?_set_self hl2] at h2
      cases h1; cases h2
      exact r.loc
    · rw [List.getElem?_set_ne (Ne.symm hk)] at h1 h2
      exact (v.chains k c1 d1 h1 h2).same (sm.mono fun j hj => mem_others h1 hk hj)

/-- A call changing one chain. -/
theorem Inv.on {w : World} {s : Values} (v : Inv w s) {i : Nat} (hi : i < s.chains.length)
    {f : Heap → Ch → Option (Heap × Ch)} (P : Bytes → Prop)
    (hf : ∀ c E, w.chains[i]? = some c → Rep w.heap c E (s.at i) →
      ∃ H' c' d', f w.heap c = some (H', c') ∧ Rep H' c' E d' ∧ Same w.heap H' E ∧ P d') :
    ∃ w' d', w.on i f = some w' ∧ P d' ∧ Inv w' (s.put i d') := by
  obtain ⟨c, h1, h2, r⟩ := v.lookup hi
  obtain ⟨H', c', d', f1, f2, f3, f4⟩ := hf c _ h1 r
  refine ⟨⟨H', w.chains.set i c', w.held⟩, d', ?_, f4, ?_⟩
  · unfold World.on
    simp only [h1, f1, Option.bind_eq_bind, Option.bind_some]
  · exact v.put h1 f2 (f3.mono fun j hj => by simp [hj])
      (dataOf_same (f3.mono fun j hj => by simp [hj]) v.held)

/-- The references from chains other than `i` and `j`. -/
def others2 (cs : List Ch) (i j : Nat) : List Nat := refsOf ((cs.set i {}).set j {})

theorem count_others2 {cs : List Ch} {i j : Nat} {c d : Ch} (x : Nat) (hij : i ≠ j)
    (h : cs[i]? = some c) (h' : cs[j]? = some d) :
    (others2 cs i j).count x + c.blocks.count x + d.blocks.count x = (refsOf cs).count x := by
  have h1 := count_others x h
  have h2 : (cs.set i {})[j]? = some d := by rw [List.getElem?_set_ne hij, h']
  have h3 := count_refsOf_set (cs.set i {}) (c' := {}) x h2
  simp only [others2, others] at h1 h3 ⊢
  simp at h3
  omega

/-- A call with two chains. -/
theorem Inv.on2 {w : World} {s : Values} (v : Inv w s) {i j : Nat} (hi : i < s.chains.length)
    (hj : j < s.chains.length) (hij : i ≠ j) {f : Heap → Ch → Ch → Option (Heap × Ch × Ch)}
    (P : Bytes → Bytes → Prop)
    (hf : ∀ c t E, Rep w.heap c (t.blocks ++ E) (s.at i) → Rep w.heap t (c.blocks ++ E) (s.at j) →
      ∃ H' c' t' d' e', f w.heap c t = some (H', c', t') ∧ Rep H' c' (t'.blocks ++ E) d' ∧
        Rep H' t' (c'.blocks ++ E) e' ∧ Same w.heap H' E ∧ P d' e') :
    ∃ w' d' e', w.on2 i j f = some w' ∧ P d' e' ∧ Inv w' ((s.put i d').put j e') := by
  obtain ⟨c, h1, h2, r1⟩ := v.lookup hi
  obtain ⟨t, k1, k2, r2⟩ := v.lookup hj
  have hE : ∀ x, (others2 w.chains i j).count x + c.blocks.count x + t.blocks.count x =
    (refsOf w.chains).count x := fun x => count_others2 x hij h1 k1
  obtain ⟨H', c', t', d', e', f1, f2, f3, f4, f5⟩ := hf c t (others2 w.chains i j ++ w.held)
    (r1.congr fun x => by
      have := hE x; have := count_others x h1
      simp only [List.count_append]; omega)
    (r2.congr fun x => by
      have := hE x; have := count_others x k1
      simp only [List.count_append]; omega)
  have hl1 := (List.getElem?_eq_some_iff.1 h1).1
  have hl2 := (List.getElem?_eq_some_iff.1 k1).1
  have k3 : (w.chains.set i c')[j]? = some t := by rw [List.getElem?_set_ne hij, k1]
  refine ⟨⟨H', (w.chains.set i c').set j t', w.held⟩, d', e', ?_, f5, ?_, ?_, ?_, ?_⟩
  · unfold World.on2
    simp only [h1, k1, f1, Option.bind_eq_bind, Option.bind_some]
  · refine f2.good.congr fun x => ?_
    have e1 := count_refsOf_set w.chains (c' := c') x h1
    have e2 := count_refsOf_set (w.chains.set i c') (c' := t') x k3
    have := hE x
    simp only [List.count_append]; omega
  · simp [Values.put, v.len]
  · intro k c1 d1 q1 q2
    simp only [Values.put] at q1 q2
    by_cases hkj : k = j
    · subst hkj
      rw [List.getElem?_set_self (by simpa using hl2)] at q1
      rw [List.getElem?_set_self (by simpa using hj)] at q2
      cases q1; cases q2
      exact f3.loc
    · rw [List.getElem?_set_ne (Ne.symm hkj)] at q1 q2
      by_cases hki : k = i
      · subst hki
        rw [List.getElem?_set_self (by simpa using hl1)] at q1
        rw [List.getElem?_set_self (by simpa using hi)] at q2
        cases q1; cases q2
        exact f2.loc
      · rw [List.getElem?_set_ne (Ne.symm hki)] at q1 q2
        refine (v.chains k c1 d1 q1 q2).same (f4.mono fun x hx => ?_)
        have : x ∈ others2 w.chains i j := by
          refine mem_refsOf (i := k) ?_ hx
          rw [List.getElem?_set_ne (Ne.symm hkj), List.getElem?_set_ne (Ne.symm hki), q1]
        simp [this]
  · exact dataOf_same (f4.mono fun x hx => by simp [hx]) v.held

/-- A new chain. -/
theorem Inv.add {w : World} {s : Values} (v : Inv w s) {H' : Heap} {c : Ch} {d : Bytes}
    (r : Rep H' c (refsOf w.chains ++ w.held) d) (sm : Same w.heap H' (refsOf w.chains ++ w.held)) :
    Inv ⟨H', w.chains ++ [c], w.held⟩ ⟨s.chains ++ [d], s.held⟩ := by
  refine ⟨r.good.congr fun x => ?_, by simp [v.len], ?_, dataOf_same (sm.mono fun x hx => by simp [hx]) v.held⟩
  · simp [refsOf]; omega
  · intro k c1 d1 q1 q2
    simp only at q1 q2
    by_cases hk : k < w.chains.length
    · rw [List.getElem?_append_left hk] at q1
      rw [List.getElem?_append_left (by rw [← v.len]; exact hk)] at q2
      exact (v.chains k c1 d1 q1 q2).same (sm.mono fun x hx => by simp [mem_refsOf q1 hx])
    · rw [List.getElem?_append_right (by omega)] at q1
      rw [List.getElem?_append_right (by rw [← v.len]; omega), ← v.len] at q2
      cases hn : k - w.chains.length with
      | zero => rw [hn] at q1 q2; simp at q1 q2; subst q1; subst q2; exact r.loc
      | succ n => rw [hn] at q1; simp at q1

theorem map_eraseIdx' {α β : Type} (f : α → β) : ∀ (l : List α) (i : Nat),
    (l.eraseIdx i).map f = (l.map f).eraseIdx i
  | [], i => by simp
  | a :: l, 0 => by simp
  | a :: l, i + 1 => by simp [map_eraseIdx' f l i]

/-- A call giving a block to a chain. -/
theorem Inv.onBlock {w : World} {s : Values} (v : Inv w s) {i h : Nat} (hi : i < s.chains.length)
    (hh : h < s.held.length) (own : Ownership) {f : Heap → Ch → Nat → Option (Heap × Ch)} {d' : Bytes}
    (hf : ∀ c id x E, w.chains[i]? = some c → Rep w.heap c (id :: E) (s.at i) →
      view w.heap id = some x → x.data = s.held.getD h [] →
      ∃ H' c', f w.heap c id = some (H', c') ∧ Rep H' c' (rest own [id] E) d' ∧
        Same w.heap H' (rest own [id] E)) :
    ∃ w', w.onBlock i h own f = some w' ∧ Inv w' (match own with
      | .pass => { s.put i d' with held := s.held.eraseIdx h }
      | .share => s.put i d') := by
  obtain ⟨c, h1, h2, r⟩ := v.lookup hi
  obtain ⟨id, x, k1, k2, k3, k4⟩ := v.heldAt hh
  obtain ⟨H', c', f1, f2, f3⟩ := hf c id x (others w.chains i ++ w.held.eraseIdx h) h1
    (r.congr fun y => by
      have := count_erase w.held y k1
      simp only [List.count_append, List.count_cons, List.count_nil, Nat.zero_add] at this ⊢
      omega) k2 k3
  have hin : ∀ y, y ∈ w.held.eraseIdx h → y ∈ w.held := fun y hy => List.mem_of_mem_eraseIdx hy
  cases own with
  | pass =>
    simp only [rest] at f2 f3
    refine ⟨⟨H', w.chains.set i c', w.held.eraseIdx h⟩, ?_, ?_⟩
    · unfold World.onBlock
      simp only [h1, k1, f1, Option.bind_eq_bind, Option.bind_some]
    · refine v.put h1 f2 (f3.mono fun j hj => by simp [hj]) ?_
      refine dataOf_same (H := w.heap) (f3.mono fun j hj => by simp [hj]) ?_
      rw [map_eraseIdx', v.held, ← map_eraseIdx']
  | share =>
    simp only [rest] at f2 f3
    have hc9 : ∀ y, (others w.chains i ++ w.held).count y =
        ([id] ++ (others w.chains i ++ w.held.eraseIdx h)).count y := fun y => by
      have := count_erase w.held y k1
      simp only [List.count_append] at this ⊢
      omega
    have hm : ∀ y, y ∈ w.held → y ∈ [id] ++ (others w.chains i ++ w.held.eraseIdx h) := fun y hy => by
      rw [← List.count_pos_iff, ← hc9, List.count_pos_iff]
      simp [hy]
    refine ⟨⟨H', w.chains.set i c', w.held⟩, ?_, ?_⟩
    · unfold World.onBlock
      simp only [h1, k1, f1, Option.bind_eq_bind, Option.bind_some]
    · exact v.put h1 (f2.congr hc9) (f3.mono fun j hj => by simp [hj])
        (dataOf_same (f3.mono hm) v.held)

/-! ### Taking blocks out -/

theorem pinBlock_spec {H : Heap} {hs : List Nat} {id off len : Nat} (g : Good H hs) (hm : id ∈ hs)
    {v : View} (hv : view H id = some v) (hl : off + len ≤ v.data.length) :
    ∃ H' b v', pinBlock H id off len = some (H', b) ∧ Good H' (b :: hs) ∧ Same H H' hs ∧
      view H' b = some v' ∧ v'.data = slice v.data off len := by
  obtain ⟨r, h1, h2, h3⟩ := g.view_size hm hv
  unfold pinBlock
  rw [get_of h1 h2]
  simp only [Option.bind_eq_bind, Option.bind_some]
  have live : ∀ j, j ∈ hs → ∃ s, H[j]? = some s ∧ s.refs ≠ 0 := fun j hj => g.live hj
  have self : ∃ H' b v', (do let H ← ref H id; newSub H id off len) = some (H', b) ∧
      Good H' (b :: hs) ∧ Same H H' hs ∧ view H' b = some v' ∧ v'.data = slice v.data off len := by
    obtain ⟨H1, k1, g1, e1⟩ := ref_live g h1 h2
    obtain ⟨H', b, k2, k3, k4, k5⟩ := newSub_spec (off := off) (len := len) g1
      (by rw [e1 id ⟨r, h1, h2⟩, hv]) hl
    refine ⟨H', b, _, ?_, k3, ?_, k5, rfl⟩
    · simp only [k1, k2, Option.bind_eq_bind, Option.bind_some]
    · exact fun j hj => by rw [k4 j hj, e1 j (live j hj)]
  by_cases hw : r.body.size = len
  · rw [if_pos hw]
    obtain ⟨H1, k1, g1, e1⟩ := ref_live g h1 h2
    simp only [k1, Option.bind_some]
    refine ⟨H1, id, v, rfl, g1, fun j hj => e1 j (live j hj), by rw [e1 id ⟨r, h1, h2⟩, hv], ?_⟩
    have : off = 0 := by omega
    subst this
    have : len = v.data.length := by omega
    rw [this]; simp [slice]
  · rw [if_neg hw]
    cases hb : r.body with
    | sub o off' len' =>
      simp only
      obtain ⟨s, s1, s2, s3, s4⟩ := g.owner_live h1 h2 hb
      obtain ⟨w, w1, w2, _⟩ := view_live g o s s1 s2
      have hvd : v.data = slice w.data off' len' := by
        rw [view_eq, h1] at hv
        simp only [h2, if_false, hb, s3, if_true, w1, Option.map_some, Option.some.injEq] at hv
        rw [← hv]
      have hsz : v.data.length = len' := by rw [h3, hb]; rfl
      obtain ⟨H1, k1, g1, e1⟩ := ref_live g s1 s2
      obtain ⟨H', b, k2, k3, k4, k5⟩ := newSub_spec (off := off' + off) (len := len) g1
        (by rw [e1 o ⟨s, s1, s2⟩, w1]) (by omega)
      simp only [k1, k2, Option.bind_some]
      refine ⟨H', b, _, rfl, k3, fun j hj => by rw [k4 j hj, e1 j (live j hj)], k5, ?_⟩
      show slice w.data (off' + off) len = _
      rw [hvd]
      unfold slice
      rw [List.drop_take, List.take_take, List.drop_drop]
      congr 1; omega
    | internal mem beg len' => exact self
    | external d => exact self

theorem partBlock_spec {H : Heap} {hs : List Nat} {id off len : Nat} (g : Good H (id :: hs))
    {v : View} (hv : view H id = some v) (hl : off + len ≤ v.data.length) :
    ∃ H' b v', partBlock H id off len = some (H', b) ∧ Good H' (b :: hs) ∧ Same H H' hs ∧
      view H' b = some v' ∧ v'.data = slice v.data off len := by
  obtain ⟨r, h1, h2, h3⟩ := g.view_size (by simp) hv
  unfold partBlock
  rw [get_of h1 h2]
  simp only [Option.bind_eq_bind, Option.bind_some]
  by_cases hw : len = r.body.size
  · rw [if_pos hw]
    refine ⟨H, id, v, rfl, g, Same.refl _ _, hv, ?_⟩
    have : off = 0 := by omega
    subst this
    have : len = v.data.length := by omega
    rw [this]; simp [slice]
  · rw [if_neg hw]
    obtain ⟨H', b, k2, k3, k4, k5⟩ := newSub_spec g hv hl
    exact ⟨H', b, _, k2, k3, k4, k5, rfl⟩

/-! ### All calls -/

theorem OptsOk.ok {o : Opts} (h : OptsOk o) : o.Ok := ⟨h.1, h.2.1, h.2.2⟩

theorem Inv.put_same {w : World} {s : Values} (v : Inv w s) {i j : Nat} (hj : j < s.chains.length)
    (hij : i ≠ j) {d : Bytes} : (s.put i d).put j (s.at j) = s.put i d := by
  simp only [Values.put, Values.mk.injEq, and_true]
  obtain ⟨_, _, q, _⟩ := v.lookup hj
  refine List.ext_getElem? fun k => ?_
  by_cases hk : k = j
  · subst hk
    rw [List.getElem?_set_self (by simpa using hj), List.getElem?_set_ne hij, q]
  · rw [List.getElem?_set_ne (Ne.symm hk)]

/-- Blocks were released. -/
theorem Inv.drop {w : World} {s : Values} (v : Inv w s) {H' : Heap} (h : Nat)
    (g : Good H' (refsOf w.chains ++ w.held.eraseIdx h))
    (sm : Same w.heap H' (refsOf w.chains ++ w.held.eraseIdx h)) :
    Inv ⟨H', w.chains, w.held.eraseIdx h⟩ ⟨s.chains, s.held.eraseIdx h⟩ := by
  refine ⟨g, v.len, fun k c d h1 h2 => ?_, ?_⟩
  · exact (v.chains k c d h1 h2).same (sm.mono fun x hx => by simp [mem_refsOf h1 hx])
  · refine dataOf_same (H := w.heap) (sm.mono fun j hj => by simp [hj]) ?_
    rw [map_eraseIdx', v.held, ← map_eraseIdx']

/-- A block was replaced with a new one. -/
theorem Inv.hold' {w : World} {s : Values} (v : Inv w s) {H' : Heap} {b : Nat} {x : View} {d : Bytes}
    (h : Nat) (g : Good H' (b :: (refsOf w.chains ++ w.held.eraseIdx h)))
    (sm : Same w.heap H' (refsOf w.chains ++ w.held.eraseIdx h)) (hx : view H' b = some x)
    (hd : x.data = d) :
    Inv ⟨H', w.chains, w.held.eraseIdx h ++ [b]⟩ ⟨s.chains, s.held.eraseIdx h ++ [d]⟩ := by
  refine ⟨g.congr fun y => ?_, v.len, fun k c d h1 h2 => ?_, ?_⟩
  · simp [List.count_cons]; omega
  · exact (v.chains k c d h1 h2).same (sm.mono fun x hx => by simp [mem_refsOf h1 hx])
  · rw [List.map_append, List.map_append]
    congr 1
    · refine dataOf_same (H := w.heap) (sm.mono fun j hj => by simp [hj]) ?_
      rw [map_eraseIdx', v.held, ← map_eraseIdx']
    · simp [dataOf, hx, hd]

/-- A new block. -/
theorem Inv.hold {w : World} {s : Values} (v : Inv w s) {H' : Heap} {b : Nat} {x : View} {d : Bytes}
    (g : Good H' (b :: (refsOf w.chains ++ w.held)))
    (sm : Same w.heap H' (refsOf w.chains ++ w.held)) (hx : view H' b = some x) (hd : x.data = d) :
    Inv ⟨H', w.chains, w.held ++ [b]⟩ ⟨s.chains, s.held ++ [d]⟩ := by
  refine ⟨g.congr fun y => ?_, v.len, fun k c d h1 h2 => ?_, ?_⟩
  · simp [List.count_cons]; omega
  · exact (v.chains k c d h1 h2).same (sm.mono fun x hx => by simp [mem_refsOf h1 hx])
  · rw [List.map_append, List.map_append]
    congr 1
    · exact dataOf_same (sm.mono fun j hj => by simp [hj]) v.held
    · simp [dataOf, hx, hd]

theorem Inv.step {env : Env} (he : env.Ok) {w : World} {s : Values} (v : Inv w s) {op : COp}
    (hp : op.Pre w s) :
    ∃ w' s', op.run env w = some w' ∧ op.Effect w s s' ∧ Inv w' s' := by
  cases op with
  | make src =>
    obtain ⟨H', c, h1, h2, h3⟩ := initBytes_spec he (c := {}) (E := refsOf w.chains ++ w.held)
      (src := src) ⟨by simpa using v.good, rfl, by simp [ArrOk], by decide⟩ rfl
      (by intro _ a ha; simp at ha) hp
    exact ⟨_, _, by simp only [COp.run, h1, Option.bind_eq_bind, Option.bind_some], rfl, v.add h2 h3⟩
  | copy i =>
    obtain ⟨c, h1, h2, r⟩ := v.lookup hp
    obtain ⟨H', c', k1, k2, k3, k4⟩ := copyChain_spec r
    have hc : ∀ x, (refsOf w.chains ++ w.held).count x =
        (c.blocks ++ (others w.chains i ++ w.held)).count x := fun x => by
      have := count_others x h1
      simp only [List.count_append]; omega
    refine ⟨_, _, by simp only [COp.run, h1, k1, Option.bind_eq_bind, Option.bind_some], rfl,
      v.add (k2.congr hc) (k4.mono fun j hj => ?_)⟩
    rw [← List.count_pos_iff, ← hc, List.count_pos_iff]; exact hj
  | move i =>
    obtain ⟨c, h1, h2, r⟩ := v.lookup hp
    obtain ⟨m1, m2⟩ := moveChain_spec r
    have hl := (List.getElem?_eq_some_iff.1 h1).1
    refine ⟨⟨w.heap, w.chains.set i (moveChain c).2 ++ [(moveChain c).1], w.held⟩,
      ⟨s.chains.set i [] ++ [s.at i], s.held⟩, ?_, rfl, ?_, ?_, ?_, v.held⟩
    · simp only [COp.run, h1, Option.bind_eq_bind, Option.bind_some]
    · refine v.good.congr fun x => ?_
      have e1 := count_refsOf_set w.chains (c' := (moveChain c).2) x h1
      have e2 : (moveChain c).2.blocks = [] := rfl
      have e3 : (moveChain c).1 = c := rfl
      rw [e2] at e1
      have e4 : refsOf (w.chains.set i (moveChain c).2 ++ [(moveChain c).1]) =
          refsOf (w.chains.set i (moveChain c).2) ++ c.blocks := by
        simp [refsOf, e3]
      simp only [List.count_nil] at e1
      simp only [e4, List.count_append]
      omega
    · simp [v.len]
    · intro k c1 d1 q1 q2
      simp only at q1 q2
      by_cases hk : k < w.chains.length
      · rw [List.getElem?_append_left (by simpa using hk)] at q1
        rw [List.getElem?_append_left (by simp [← v.len]; exact hk)] at q2
        by_cases hki : k = i
        · subst hki
          rw [List.getElem?_set_self hl] at q1
          rw [List.getElem?_set_self hp] at q2
          cases q1; cases q2
          exact m2.loc
        · rw [List.getElem?_set_ne (Ne.symm hki)] at q1 q2
          exact v.chains k c1 d1 q1 q2
      · rw [List.getElem?_append_right (by simp; omega)] at q1
        rw [List.getElem?_append_right (by simp [← v.len]; omega)] at q2
        simp only [List.length_set, ← v.len] at q1 q2
        cases hn : k - w.chains.length with
        | zero => rw [hn] at q1 q2; simp at q1 q2; subst q1; subst q2; exact m1.loc
        | succ n => rw [hn] at q1; simp at q1
  | destroy i =>
    obtain ⟨c, h1, h2, r⟩ := v.lookup hp
    obtain ⟨H', k1, k2, k3⟩ := destroyChain_spec r
    have hc : ∀ x, (refsOf (w.chains.eraseIdx i) ++ w.held).count x =
        (others w.chains i ++ w.held).count x := fun x => by
      have e1 := count_others x h1
      have e2 := count_refsOf_erase w.chains x h1
      simp only [List.count_append]; omega
    refine ⟨⟨H', w.chains.eraseIdx i, w.held⟩, _, ?_, rfl, k2.congr hc, ?_, ?_,
      dataOf_same (k3.mono fun j hj => by simp [hj]) v.held⟩
    · simp only [COp.run, h1, k1, Option.bind_eq_bind, Option.bind_some]
    · simp [List.length_eraseIdx, v.len]
    · intro k c1 d1 q1 q2
      simp only [List.getElem?_eraseIdx] at q1 q2
      by_cases hk : k < i
      · rw [if_pos hk] at q1 q2
        exact (v.chains k c1 d1 q1 q2).same
          (k3.mono fun j hj => by simp [mem_others (i := i) q1 (by omega) hj])
      · rw [if_neg hk] at q1 q2
        exact (v.chains (k + 1) c1 d1 q1 q2).same
          (k3.mono fun j hj => by simp [mem_others (i := i) q1 (by omega) hj])
  | assign i j =>
    obtain ⟨hi, hj, hij⟩ := hp
    obtain ⟨w', d', e', k1, ⟨k2, k3⟩, k4⟩ := v.on2 hi hj hij
      (f := fun H c s => (assignChain H c s).map fun (H, c) => (H, c, s))
      (fun d e => d = s.at j ∧ e = s.at j) (fun c t E r1 r2 => by
        obtain ⟨H', c', q1, q2, q3, q4⟩ := assignChain_spec r1 r2
        exact ⟨H', c', t, _, _, by simp [q1], q2, q3, q4.mono fun j hj => by simp [hj], rfl, rfl⟩)
    subst k2 k3
    refine ⟨w', s.put i (s.at j), k1, rfl, ?_⟩
    rw [v.put_same hj hij] at k4
    exact k4
  | moveAssign i j =>
    obtain ⟨hi, hj, hij⟩ := hp
    obtain ⟨w', d', e', k1, ⟨k2, k3⟩, k4⟩ := v.on2 hi hj hij
      (f := fun H c s => Chn.moveAssign H c s)
      (fun d e => d = s.at j ∧ e = []) (fun c t E r1 r2 => by
        obtain ⟨H', c', t', q1, q2, q3, q4⟩ := moveAssign_spec r1 r2
        exact ⟨H', c', t', _, _, q1, q2, q3, q4.mono fun j hj => by simp [hj], rfl, rfl⟩)
    subst k2 k3
    exact ⟨w', _, k1, rfl, k4⟩
  | clear i =>
    obtain ⟨w', d', k1, k2, k3⟩ := v.on (i := i) hp (f := fun H c => Chn.clear H c) (fun d => d = [])
      (fun c E _ r => by
        obtain ⟨H', c', q1, q2, q3⟩ := clear_spec r
        exact ⟨H', c', _, q1, q2, q3, rfl⟩)
    subst k2
    exact ⟨w', _, k1, rfl, k3⟩
  | reset i src =>
    obtain ⟨hi, hm, hr⟩ := hp
    obtain ⟨w', d', k1, k2, k3⟩ := v.on hi (f := fun H c => resetBytes env H c src) (fun d => d = src)
      (fun c E hc r => by
        obtain ⟨H', c', q1, q2, q3⟩ := resetBytes_spec he r (hr c hc) hm
        exact ⟨H', c', _, q1, q2, q3, rfl⟩)
    subst k2
    exact ⟨w', _, k1, rfl, k3⟩
  | resetBlock i h =>
    obtain ⟨hi, hh, hr⟩ := hp
    obtain ⟨w', k1, k2⟩ := v.onBlock hi hh .pass (f := fun H c id => Chn.resetBlock env H c id)
      (d' := s.held.getD h [])
      (fun c id x E hc r hx hd => by
        obtain ⟨H', c', q1, q2, q3⟩ := resetBlock_spec (env := env) r (hr c hc) hx
        exact ⟨H', c', q1, by rw [← hd]; exact q2, q3⟩)
    exact ⟨w', _, k1, rfl, k2⟩
  | append i src o =>
    obtain ⟨hi, ho, hm⟩ := hp
    obtain ⟨w', d', k1, k2, k3⟩ := v.on hi (f := fun H c => appendBytes env H c src o)
      (fun d => d = s.at i ++ src) (fun c E hc r => by
        obtain ⟨H', c', q1, q2, q3⟩ := appendBytes_spec he ho.ok r hm
        exact ⟨H', c', _, q1, q2, q3, rfl⟩)
    subst k2
    exact ⟨w', _, k1, rfl, k3⟩
  | prepend i src o =>
    obtain ⟨hi, ho, hm⟩ := hp
    obtain ⟨w', d', k1, k2, k3⟩ := v.on hi (f := fun H c => prependBytes env H c src o)
      (fun d => d = src ++ s.at i) (fun c E hc r => by
        obtain ⟨H', c', q1, q2, q3⟩ := prependBytes_spec he ho.ok r hm
        exact ⟨H', c', _, q1, q2, q3, rfl⟩)
    subst k2
    exact ⟨w', _, k1, rfl, k3⟩
  | appendBuffer i minLen rec maxLen o f =>
    obtain ⟨hi, ho, hmax, hcap, hm, hf⟩ := hp
    obtain ⟨w', d', k1, ⟨n, k2, k3, k4⟩, k5⟩ := v.on hi
      (f := fun H c => do
        let (H, c, b) ← Chn.appendBuffer env H c minLen rec maxLen o
        fill H c b (f b.len))
      (fun d => ∃ n, minLen ≤ n ∧ n ≤ maxLen ∧ d = s.at i ++ f n) (fun c E hc r => by
        obtain ⟨H', c', b, q1, q2⟩ := appendBuffer_spec (rec := rec) he ho.ok r hmax hcap hm
        obtain ⟨H2, c2, q3, q4, q5⟩ := q2.fill (f b.len) (hf _)
        refine ⟨H2, c2, _, ?_, q4, q2.same.trans q5 (fun _ h => h), b.len, q2.lo, q2.hi, rfl⟩
        simp only [q1, q3, Option.bind_eq_bind, Option.bind_some])
    subst k4
    exact ⟨w', _, k1, ⟨n, k2, k3, rfl⟩, k5⟩
  | prependBuffer i minLen rec maxLen o f =>
    obtain ⟨hi, ho, hmax, hcap, hm, hf⟩ := hp
    obtain ⟨w', d', k1, ⟨n, k2, k3, k4⟩, k5⟩ := v.on hi
      (f := fun H c => do
        let (H, c, b) ← Chn.prependBuffer env H c minLen rec maxLen o
        fill H c b (f b.len))
      (fun d => ∃ n, minLen ≤ n ∧ n ≤ maxLen ∧ d = f n ++ s.at i) (fun c E hc r => by
        obtain ⟨H', c', b, q1, q2⟩ := prependBuffer_spec (rec := rec) he ho.ok r hmax hcap hm
        obtain ⟨H2, c2, q3, q4, q5⟩ := q2.fill (f b.len) (hf _)
        refine ⟨H2, c2, _, ?_, q4, q2.same.trans q5 (fun _ h => h), b.len, q2.lo, q2.hi, rfl⟩
        simp only [q1, q3, Option.bind_eq_bind, Option.bind_some])
    subst k4
    exact ⟨w', _, k1, ⟨n, k2, k3, rfl⟩, k5⟩
  | appendChain i j own o =>
    obtain ⟨hi, hj, hij, ho, hm⟩ := hp
    obtain ⟨w', d', e', k1, ⟨k2, k3⟩, k4⟩ := v.on2 hi hj hij
      (f := fun H c s => Chn.appendChain env H c s own o)
      (fun d e => d = s.at i ++ s.at j ∧ (own = .share → e = s.at j)) (fun c t E r1 r2 => by
        obtain ⟨H', c', t', q1, q2, q3, q4⟩ := appendChain_spec he ho.ok own r1 r2 hm
        cases own with
        | share => exact ⟨H', c', t', _, _, q1, q2, q3.2, q4, rfl, fun _ => rfl⟩
        | pass =>
          obtain ⟨ds', q5⟩ := q3
          exact ⟨H', c', t', _, _, q1, q2, q5, q4, rfl, fun h => by cases h⟩)
    subst k2
    cases own with
    | pass => exact ⟨w', _, k1, ⟨e', rfl⟩, k4⟩
    | share =>
      have := k3 rfl
      subst this
      refine ⟨w', _, k1, rfl, ?_⟩
      rw [v.put_same hj hij] at k4
      exact k4
  | prependChain i j own o =>
    obtain ⟨hi, hj, hij, ho, hm⟩ := hp
    obtain ⟨w', d', e', k1, ⟨k2, k3⟩, k4⟩ := v.on2 hi hj hij
      (f := fun H c s => Chn.prependChain env H c s own o)
      (fun d e => d = s.at j ++ s.at i ∧ (own = .share → e = s.at j)) (fun c t E r1 r2 => by
        obtain ⟨H', c', t', q1, q2, q3, q4⟩ := prependChain_spec he ho.ok own r1 r2 hm
        cases own with
        | share => exact ⟨H', c', t', _, _, q1, q2, q3.2, q4, rfl, fun _ => rfl⟩
        | pass =>
          obtain ⟨ds', q5⟩ := q3
          exact ⟨H', c', t', _, _, q1, q2, q5, q4, rfl, fun h => by cases h⟩)
    subst k2
    cases own with
    | pass => exact ⟨w', _, k1, ⟨e', rfl⟩, k4⟩
    | share =>
      have := k3 rfl
      subst this
      refine ⟨w', _, k1, rfl, ?_⟩
      rw [v.put_same hj hij] at k4
      exact k4
  | appendBlock i h own o =>
    obtain ⟨hi, hh, ho, hm, hz⟩ := hp
    obtain ⟨w', k1, k2⟩ := v.onBlock hi hh own (f := fun H c id => appendRawBlock env H c id own o)
      (d' := s.at i ++ s.held.getD h [])
      (fun c id x E hc r hx hd => by
        obtain ⟨H', c', q1, q2, q3⟩ := appendRawBlock_spec he ho.ok own r hx
          (fun h0 => by
            have := hz (by rw [← hd]; exact h0)
            exact ⟨this.1, by rw [← r.size]; exact this.2⟩) (by rw [hd]; exact hm)
        exact ⟨H', c', q1, by rw [← hd]; exact q2, q3⟩)
    cases own with
    | pass => exact ⟨w', _, k1, rfl, k2⟩
    | share => exact ⟨w', _, k1, rfl, k2⟩
  | prependBlock i h own o =>
    obtain ⟨hi, hh, ho, hm, hz⟩ := hp
    obtain ⟨w', k1, k2⟩ := v.onBlock hi hh own (f := fun H c id => prependRawBlock env H c id own o)
      (d' := s.held.getD h [] ++ s.at i)
      (fun c id x E hc r hx hd => by
        obtain ⟨H', c', q1, q2, q3⟩ := prependRawBlock_spec he ho.ok own r hx
          (fun h0 => by
            have := hz (by rw [← hd]; exact h0)
            exact ⟨this.1, by rw [← r.size]; exact this.2⟩) (by rw [hd]; exact hm)
        exact ⟨H', c', q1, by rw [← hd]; exact q2, q3⟩)
    cases own with
    | pass => exact ⟨w', _, k1, rfl, k2⟩
    | share => exact ⟨w', _, k1, rfl, k2⟩
  | removePrefix i n o =>
    obtain ⟨hi, hn, hm, ho⟩ := hp
    obtain ⟨w', d', k1, k2, k3⟩ := v.on hi (f := fun H c => Chn.removePrefix env H c n o)
      (fun d => d = (s.at i).drop n) (fun c E hc r => by
        obtain ⟨H', c', q1, q2, q3⟩ := removePrefix_spec he ho.ok r hn hm
        exact ⟨H', c', _, q1, q2, q3, rfl⟩)
    subst k2
    exact ⟨w', _, k1, rfl, k3⟩
  | removeSuffix i n o =>
    obtain ⟨hi, hn, hm, ho⟩ := hp
    obtain ⟨w', d', k1, k2, k3⟩ := v.on hi (f := fun H c => Chn.removeSuffix env H c n o)
      (fun d => d = (s.at i).take ((s.at i).length - n)) (fun c E hc r => by
        obtain ⟨H', c', q1, q2, q3⟩ := removeSuffix_spec he ho.ok r hn hm
        exact ⟨H', c', _, q1, q2, q3, rfl⟩)
    subst k2
    exact ⟨w', _, k1, rfl, k3⟩
  | flatten i =>
    obtain ⟨hi, hm⟩ := hp
    obtain ⟨w', d', k1, k2, k3⟩ := v.on hi
      (f := fun H c => (Chn.flatten env H c).map fun (H, c, _) => (H, c))
      (fun d => d = s.at i) (fun c E hc r => by
        obtain ⟨H', c', q1, q2, q3⟩ := flatten_spec he r hm
        exact ⟨H', c', _, by simp [q1], q2, q3, rfl⟩)
    subst k2
    refine ⟨w', s, k1, rfl, ?_⟩
    obtain ⟨_, _, q, _⟩ := v.lookup hi
    have : s.put i (s.at i) = s := by
      have h9 : s.chains.set i (s.at i) = s.chains := by
        refine List.ext_getElem? fun k => ?_
        by_cases hk : k = i
        · subst hk
          rw [List.getElem?_set_self hi, q]
        · rw [List.getElem?_set_ne (Ne.symm hk)]
      cases s
      simp only [Values.put, Values.mk.injEq, and_true]
      exact h9
    rw [this] at k3
    exact k3
  | external d =>
    obtain ⟨h1, h2, h3⟩ := newExternal_spec v.good hp
    refine ⟨_, _, rfl, rfl, ?_⟩
    exact v.hold h1 h2 h3 rfl
  | pin i k off len =>
    obtain ⟨hi, c, id, x, p1, p2, p3, p4⟩ := hp
    obtain ⟨c', h1, h2, r⟩ := v.lookup hi
    rw [p1] at h1; cases h1
    have hm : id ∈ refsOf w.chains ++ w.held := by
      simp [mem_refsOf p1 (List.mem_of_getElem? p2)]
    obtain ⟨H', b, x', q1, q2, q3, q4, q5⟩ := pinBlock_spec v.good hm p3 p4
    obtain ⟨fs, f1, f2⟩ := fragments_spec r
    have hfs : fs.getD k [] = x.data := by
      obtain ⟨vs, a, wf, hd⟩ := r
      have hne : c.blocks ≠ [] := by intro h; rw [h] at p2; simp at p2
      unfold fragments at f1
      rw [if_neg hne, mapM_views a.views] at f1
      cases f1
      have h9 := congrArg (fun l => l[k]?) a.views
      simp only [List.getElem?_map, p2, Option.map_some, p3] at h9
      cases hv : vs[k]? with
      | none => rw [hv] at h9; simp at h9
      | some y =>
        rw [hv] at h9
        simp at h9
        simp [List.getD, hv, h9]
    refine ⟨⟨H', w.chains, w.held ++ [b]⟩, _, ?_, ⟨c, fs, p1, f1, rfl⟩, ?_⟩
    · simp only [COp.run, p1, p2, q1, Option.bind_eq_bind, Option.bind_some]
    · exact v.hold q2 q3 q4 (by rw [q5, hfs]; rfl)
  | part h off len =>
    obtain ⟨hh, hl⟩ := hp
    obtain ⟨id, x, k1, k2, k3, k4⟩ := v.heldAt hh
    have g1 : Good w.heap (id :: (refsOf w.chains ++ w.held.eraseIdx h)) :=
      v.good.congr fun y => by
        have := count_erase w.held y k1
        simp only [List.count_append, List.count_cons, List.count_nil, Nat.zero_add] at this ⊢
        omega
    obtain ⟨H', b, x', q1, q2, q3, q4, q5⟩ := partBlock_spec g1 k2 (by rw [k3]; exact hl)
    refine ⟨⟨H', w.chains, w.held.eraseIdx h ++ [b]⟩, _, ?_, rfl, ?_⟩
    · simp only [COp.run, k1, q1, Option.bind_eq_bind, Option.bind_some]
    · exact v.hold' h q2 q3 q4 (by rw [q5, k3]; rfl)
  | release h =>
    obtain ⟨id, x, k1, k2, k3, k4⟩ := v.heldAt hp
    have g1 : Good w.heap (id :: (refsOf w.chains ++ w.held.eraseIdx h)) :=
      v.good.congr fun y => by
        have := count_erase w.held y k1
        simp only [List.count_append, List.count_cons, List.count_nil, Nat.zero_add] at this ⊢
        omega
    obtain ⟨H', u1, u2, u3⟩ := unref_spec g1
    refine ⟨⟨H', w.chains, w.held.eraseIdx h⟩, _, ?_, rfl, ?_⟩
    · simp only [COp.run, k1, u1, Option.bind_eq_bind, Option.bind_some]
    · exact v.drop h u2 u3

/-! ### What the program can read -/

theorem Inv.shows {w : World} {s : Values} (v : Inv w s) : Shows w s := by
  have key : ∀ i (hi : i < w.chains.length) (hs : i < s.chains.length),
      copyTo w.heap w.chains[i] = some s.chains[i] ∧ w.chains[i].size = s.chains[i].length := by
    intro i hi hs
    have h1 := List.getElem?_eq_getElem hi
    have h2 := List.getElem?_eq_getElem hs
    have r : Rep w.heap w.chains[i] (others w.chains i ++ w.held) s.chains[i] :=
      (v.chains i _ _ h1 h2).rep (v.good.congr fun x => by
        have := count_others x h1
        simp only [List.count_append]; omega)
    exact ⟨copyTo_spec r, r.size.symm⟩
  refine ⟨?_, ?_, v.held⟩
  · refine List.ext_getElem (by simp [v.len]) fun i h1 h2 => ?_
    simp only [List.length_map] at h1 h2
    simpa using (key i h1 h2).1
  · refine List.ext_getElem (by simp [v.len]) fun i h1 h2 => ?_
    simp only [List.length_map] at h1 h2
    simpa using (key i h1 h2).2

theorem map_some_inj {α : Type} : ∀ {a b : List α}, a.map some = b.map some → a = b
  | [], [], _ => rfl
  | [], _ :: _, h => by simp at h
  | _ :: _, [], h => by simp at h
  | x :: a, y :: b, h => by
    simp only [List.map_cons, List.cons.injEq, Option.some.injEq] at h
    rw [h.1, map_some_inj h.2]

/-- There is only one way to read the values. -/
theorem Shows.unique {w : World} {s s' : Values} (h : Shows w s) (h' : Shows w s') : s = s' := by
  cases s; cases s'
  have h1 := h.chains.symm.trans h'.chains
  have h2 := h.held.symm.trans h'.held
  simp only [Values.mk.injEq]
  exact ⟨map_some_inj h1, map_some_inj h2⟩

theorem Reach.inv {env : Env} (he : env.Ok) {w : World} (r : Reach env w) : ∃ s, Inv w s := by
  induction r with
  | start => exact ⟨{}, Inv.start⟩
  | call op _ hs hp hrun ih =>
    obtain ⟨s', v⟩ := ih
    have := v.shows.unique hs
    subst this
    obtain ⟨w'', s'', k1, k2, k3⟩ := v.step he hp
    rw [hrun] at k1; cases k1
    exact ⟨s'', k3⟩

/-! ### No leaks -/

/-- Every live block is referred to, in the end, by the program. -/
theorem Good.no_leak {H : Heap} (g : Good H []) : ∀ (id : Nat) (r : Raw), H[id]? = some r → r.refs = 0 := by
  -- from the end: a live block is owned by a later live block
  have key : ∀ (n id : Nat) (r : Raw), H.length - id = n → H[id]? = some r → r.refs = 0 := by
    intro n
    induction n using Nat.strongRecOn with
    | ind n ih =>
      intro id r hn hr
      have hlt := (List.getElem?_eq_some_iff.1 hr).1
      have hrefs := g.refs id r hr
      simp only [List.count_nil, Nat.zero_add] at hrefs
      rw [hrefs, List.count_eq_zero]
      intro hm
      unfold owners at hm
      obtain ⟨o, ho1, ho2⟩ := List.mem_flatMap.1 hm
      obtain ⟨k, hk⟩ := List.mem_iff_getElem?.1 ho1
      unfold Raw.own at ho2
      split at ho2
      · simp at ho2
      · rename_i hlive
        cases hb : o.body with
        | sub o' off len =>
          rw [hb] at ho2
          simp at ho2
          subst ho2
          have hbo := g.body k o hk hlive
          rw [hb] at hbo
          have hkl := (List.getElem?_eq_some_iff.1 hk).1
          have hlt' := hbo.1
          exact hlive (ih (H.length - k) (by omega) k o rfl hk)
        | internal _ _ _ => rw [hb] at ho2; simp at ho2
        | external _ => rw [hb] at ho2; simp at ho2
  exact fun id r h => key _ id r rfl h

end Riegeli.Chn

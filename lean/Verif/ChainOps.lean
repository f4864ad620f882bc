import Verif.ChainAbs
/-!
# Chain: operations at the ends
-/
namespace Riegeli.Chn

/-- The bytes of a chain with blocks `vs`. -/
def content (c : Ch) (vs : List View) : Bytes := if vs = [] then c.short.take c.size else flat vs

/-- `size_` is right, and short data are stored only where this is possible. -/
structure Wf (c : Ch) (vs : List View) : Prop where
  nil : vs = [] → c.size ≤ maxShort ∧ (c.arr ≠ none → c.size = 0)
  cons : vs ≠ [] → c.size = (flat vs).length

/-- Chain `c` is valid and its bytes are `d`; `E` are all references to blocks from
outside of the chain. -/
def Rep (H : Heap) (c : Ch) (E : List Nat) (d : Bytes) : Prop :=
  ∃ vs, Abs H c vs E ∧ Wf c vs ∧ content c vs = d

theorem Rep.size {H : Heap} {c : Ch} {E : List Nat} {d : Bytes} (r : Rep H c E d) :
    d.length = c.size := by
  obtain ⟨vs, a, w, rfl⟩ := r
  unfold content
  split
  · have := (w.nil ‹_›).1
    have := a.short
    simp; omega
  · exact (w.cons ‹_›).symm

theorem Rep.congr {H : Heap} {c : Ch} {E E' : List Nat} {d : Bytes} (r : Rep H c E d)
    (h : ∀ x, E'.count x = E.count x) : Rep H c E' d := by
  obtain ⟨vs, a, w, hd⟩ := r
  exact ⟨vs, a.congr h, w, hd⟩

/-- A chain with blocks. -/
theorem Rep.ofBlocks {H : Heap} {c : Ch} {vs : List View} {E : List Nat} {d : Bytes}
    (a : Abs H c vs E) (hv : vs ≠ []) (hd : flat vs = d) (hs : c.size = d.length) :
    Rep H c E d :=
  ⟨vs, a, ⟨fun h => absurd h hv, fun _ => by rw [hs, hd]⟩, by unfold content; rw [if_neg hv, hd]⟩

/-- A chain with no blocks. -/
theorem Rep.ofShort {H : Heap} {c : Ch} {E : List Nat} {d : Bytes}
    (a : Abs H c [] E) (hs : c.size ≤ maxShort) (ha : c.arr ≠ none → c.size = 0)
    (hd : c.short.take c.size = d) : Rep H c E d :=
  ⟨[], a, ⟨fun _ => ⟨hs, ha⟩, fun h => absurd rfl h⟩, by unfold content; rw [if_pos rfl, hd]⟩

theorem short16_some {H : Heap} {c : Ch} {E : List Nat} (a : Abs H c [] E) (w : Wf c []) :
    short16 c = some c.short := by
  unfold short16
  rw [if_pos]
  refine ⟨a.nil_iff.2 rfl, ?_⟩
  have := (w.nil rfl).2
  cases h : c.arr with
  | none => exact .inr rfl
  | some x => exact .inl (this (by simp [h]))

theorem shortData_some {H : Heap} {c : Ch} {E : List Nat} (a : Abs H c [] E) (w : Wf c []) :
    shortData c = some (c.short.take c.size) := by
  unfold shortData
  rw [short16_some a w]
  rfl

/-- What is required of `Chain::Options`: `set_max_block_size()` and
`set_min_block_size()` make the sizes fit in 32 bits, and assert that the maximum is
positive (`chain_base.h:95-140`). -/
structure Opts.Ok (o : Opts) : Prop where
  maxPos : 0 < o.maxB
  maxLe : o.maxB < 2 ^ 32
  minLe : o.minB < 2 ^ 32

theorem newBlockCapacity_spec {c : Ch} {replaced minLen rec : Nat} {o : Opts} (ho : o.Ok)
    (h1 : replaced ≤ c.size) (h2 : replaced + minLen ≤ maxCap) :
    ∃ cap, newBlockCapacity c replaced minLen rec o = some cap ∧ replaced + minLen ≤ cap ∧
      cap ≤ maxCap := by
  unfold newBlockCapacity
  rw [if_pos ⟨h1, by omega⟩]
  refine ⟨_, rfl, by omega, ?_⟩
  generalize (match o.hint with
      | some h => if c.size ≤ h then h - c.size else max c.size (o.minB - replaced)
      | none => max c.size (o.minB - replaced)) = base
  have := ho.maxLe
  unfold maxCap at *
  omega

/-! ### `AppendBuffer()` -/

/-- What `AppendBuffer()` promises, for a chain with bytes `d`. -/
structure Buffered (H : Heap) (E : List Nat) (H' : Heap) (c' : Ch) (buf : Buf)
    (f : Bytes → Bytes) (lo hi : Nat) : Prop where
  lo : lo ≤ buf.len
  hi : buf.len ≤ hi
  rep : ∃ junk, junk.length = buf.len ∧ Rep H' c' E (f junk)
  same : Same H H' E
  fill : ∀ bs, bs.length = buf.len → ∃ H'' c'', Chn.fill H' c' buf bs = some (H'', c'') ∧
    Rep H'' c'' E (f bs) ∧ Same H' H'' E

theorem Buffered.trans {H0 H H' : Heap} {E : List Nat} {c' : Ch} {buf : Buf}
    {f : Bytes → Bytes} {lo hi : Nat} (b : Buffered H E H' c' buf f lo hi) (s : Same H0 H E) :
    Buffered H0 E H' c' buf f lo hi :=
  ⟨b.lo, b.hi, b.rep, s.trans b.same (fun _ h => h), b.fill⟩

theorem appendBufferLast_spec {H : Heap} {c : Ch} {vs : List View} {v : View} {E : List Nat}
    {l minLen maxLen : Nat} (a : Abs H c (vs ++ [v]) E) (hl : back c = some l)
    (hcan : canAppend H l minLen = some true) (hs : c.size = (flat (vs ++ [v])).length)
    (hmax : minLen ≤ maxLen) (hsz : c.size + minLen ≤ maxSize) :
    ∃ H' c' buf, appendBufferLast H c minLen maxLen = some (H', c', buf) ∧
      Buffered H E H' c' buf (fun bs => flat (vs ++ [v]) ++ bs) minLen maxLen := by
  obtain ⟨ids, l', h1, h2, h3, h4, h5, h6⟩ := a.last
  rw [h2] at hl; cases hl
  obtain ⟨mem, beg, len, hb, hroom⟩ := canAppend_true hcan
  have hk := (h5.body l _ hb (by simp)).1
  obtain ⟨H', n, k1, k2, k3, k4, k5, k6, k7, k8⟩ :=
    blkAppendBuffer_spec h5 hb (min maxLen (maxSize - c.size))
  have hv : v = ⟨slice mem beg len, some mem.length⟩ := by
    rw [view_internal (n := 0) hb] at h3
    exact (Option.some.inj h3).symm
  generalize hbeg : (if len = 0 then 0 else beg) = beg' at *
  have a1 : Abs H' c (vs ++ [⟨slice mem beg' (len + n), some mem.length⟩]) E :=
    a.modLast h1 k3 k4 (view_internal (n := 0) k5)
  have hsl : (slice mem beg' (len + n)).length = len + n := by
    simp [slice]; omega
  have hvl : v.data.length = len := by rw [hv]; simp [slice]; omega
  have hspl : slice mem beg' (len + n) = v.data ++ slice mem (beg' + len) n := by
    rw [hv]
    simp only
    rw [← k7]
    unfold slice
    rw [← List.drop_drop, ← List.take_append_drop len ((mem.drop beg').take (len + n))]
    rw [List.take_take, List.drop_take]
    congr 2 <;> omega
  refine ⟨H', { c with size := c.size + n }, .block ⟨l, beg' + len, n⟩, ?_, ?_, ?_, ?_, ?_, ?_⟩
  · unfold appendBufferLast
    simp only [h2, k1, Option.bind_eq_bind, Option.bind_some]
    rw [if_pos (by rw [k2]; omega)]
  · show minLen ≤ n; rw [k2]; omega
  · show n ≤ maxLen; rw [k2]; omega
  · refine ⟨slice mem (beg' + len) n, by simp [slice, Buf.len]; omega, ?_⟩
    refine Rep.ofBlocks (a1.ext rfl rfl rfl) (by simp) ?_ ?_
    · simp [hspl]
    · show c.size + n = _
      rw [hs]
      simp [slice]
      omega
  · exact k4.mono fun j hj => by simp [hj]
  · intro bs hbs
    have hbs' : bs.length = n := hbs
    obtain ⟨H'', m1, m2, m3, m4, _, _⟩ := fillSpan_after k3 k5 hbs'
    refine ⟨H'', { c with size := c.size + n }, ?_, ?_, m3.mono fun j hj => by simp [hj]⟩
    · simp [fill, m1]
    · have a2 := a1.modLast h1 m2 m3 m4
      refine Rep.ofBlocks (a2.ext rfl rfl rfl) (by simp) ?_ ?_
      · simp [k7, hv]
      · show c.size + n = _
        rw [hs]; simp; omega

theorem Fresh.of_good {H : Heap} {c : Ch} {vs : List View} {E : List Nat} (a : Abs H c vs E) :
    Good H (c.blocks ++ E) := a.good

theorem Opts.default_ok : ({} : Opts).Ok := ⟨by decide, by decide, by decide⟩

theorem content_nil (c : Ch) : content c [] = c.short.take c.size := by simp [content]

theorem writeMem_end {mem bs : Bytes} {k : Nat} (h : k + bs.length ≤ mem.length) :
    ∃ mem', writeMem mem k bs = some mem' ∧ mem'.length = mem.length ∧
      mem'.take (k + bs.length) = mem.take k ++ bs := by
  obtain ⟨h1, h2⟩ := writeMem_some h
  refine ⟨_, h1, h2, ?_⟩
  rw [List.take_append_of_le_length (by simp; omega), List.take_of_length_le (by simp; omega)]

theorem appendBufferShort_spec {env : Env} (he : env.Ok) {H : Heap} {c : Ch} {E : List Nat}
    {minLen rec maxLen : Nat} {o : Opts} (ho : o.Ok) (a : Abs H c [] E) (w : Wf c [])
    (hmax : minLen ≤ maxLen) (hcap : minLen ≤ maxCap) :
    ∃ H' c' buf, appendBufferShort env H c minLen rec maxLen o = some (H', c', buf) ∧
      Buffered H E H' c' buf (fun bs => content c [] ++ bs) minLen maxLen := by
  obtain ⟨w1, w2⟩ := w.nil rfl
  have hb : c.blocks = [] := a.nil_iff.2 rfl
  have hms : maxShort = 16 := rfl
  have hmc : maxCap = 2 ^ 63 - 1 := rfl
  have hmz : maxSize = 2 ^ 64 - 1 := rfl
  have hcl : (c.short.take c.size).length = c.size := by
    have := a.short; simp; omega
  unfold appendBufferShort
  rw [if_neg (by omega)]
  split
  · rename_i hc
    have hE : ensureHasHere c = some { c with arr := none } := by
      unfold ensureHasHere; rw [if_pos hb]
    simp only [hE, Option.bind_eq_bind, Option.bind_some]
    generalize hn : min maxLen (maxShort - c.size) = n
    have hg : Good H ([] ++ E) := by rw [← hb]; exact a.good
    refine ⟨_, _, _, rfl, ?_, ?_, ?_, Same.refl _ _, ?_⟩
    · show minLen ≤ n; omega
    · show n ≤ maxLen; omega
    · refine ⟨slice c.short c.size n, ?_, ?_⟩
      · have := a.short
        simp [slice, Buf.len]; omega
      · refine Rep.ofShort ⟨?_, ?_, by simp [ArrOk], a.short⟩ ?_ (by simp) ?_
        · simp only [hb]; exact hg
        · simp only [hb]; rfl
        · simp only; omega
        · simp only [content_nil, slice]
          rw [List.take_add]
    · intro bs hbs
      have hbs' : bs.length = n := hbs
      obtain ⟨mem', m1, m2, m3⟩ := writeMem_end (mem := c.short) (bs := bs) (k := c.size)
        (by have := a.short; omega)
      refine ⟨H, _, by simp [fill, m1, hbs']; rfl, ?_, Same.refl _ _⟩
      refine Rep.ofShort ⟨?_, ?_, by simp [ArrOk], ?_⟩ ?_ (by simp) ?_
      · simp only [hb]; exact hg
      · simp only [hb]; rfl
      · simp only; rw [m2]; exact a.short
      · simp only; omega
      · simp only [content_nil]; rw [← hbs', m3]
  · split
    · rename_i _ h0
      subst h0
      refine ⟨H, c, .empty, rfl, ?_, ?_, ⟨[], rfl, ?_⟩, Same.refl _ _, ?_⟩
      · exact Nat.le_refl 0
      · exact Nat.zero_le _
      · exact ⟨[], a, w, by simp⟩
      · intro bs hbs
        have : bs = [] := by simpa [Buf.len] using hbs
        subst this
        exact ⟨H, c, by simp [fill], ⟨[], a, w, by simp⟩, Same.refl _ _⟩
    · rename_i hc0 h0
      have h16 := short16_some a w
      split
      · -- two blocks
        rename_i hbig
        obtain ⟨H1, b1, k1, f1, _⟩ := newInternal_fresh he a.good (n := maxShort) (by decide) (by decide)
        obtain ⟨H2, k2, f2⟩ := f1.appendExplicit c.short c.size (by have := a.short; omega)
          (by have := a.short; omega)
        obtain ⟨cap2, v2, _, _⟩ := f2.toFresh.view
        have a2 := a.fresh f2.toFresh
        obtain ⟨c3, k3, a3, kk3, e3⟩ := a2.pushBack v2
        obtain ⟨cap, k4, hc1, hc2⟩ := newBlockCapacity_spec (c := c3) (replaced := 0) (minLen := minLen)
          (rec := rec) ho (by omega) (by omega)
        obtain ⟨H5, b5, k5, f5, _⟩ := newInternal_fresh he a3.good (n := cap) (by omega) (by omega)
        obtain ⟨cap5, v5, _, _⟩ := f5.toFresh.view
        have a5 := a3.fresh f5.toFresh
        obtain ⟨c6, k6, a6, kk6, e6⟩ := a5.pushBack v5
        have hbk : back c6 = some b5 := by simp [back, e6]
        have hflat : flat (([] ++ [(⟨c.short.take c.size, some cap2⟩ : View)]) ++ [⟨[], some cap5⟩])
            = c.short.take c.size := by simp
        have hsz6 : c6.size = c.size := kk6.1.trans kk3.1
        obtain ⟨H', c', buf, q1, q2⟩ := appendBufferLast_spec (maxLen := maxLen) (minLen := minLen) a6 hbk
          (f5.can (by simp; omega)) (by rw [hflat, hsz6, hcl]) hmax (by rw [hsz6]; omega)
        refine ⟨H', c', buf, ?_, ?_⟩
        · simp only [h16, k1, k2, k3, k4, k5, k6, Option.bind_eq_bind, Option.bind_some]
          exact q1
        · rw [hflat] at q2
          rw [content_nil]
          refine q2.trans ?_
          exact (f2.same.mono (fun j hj => by simp [hj])).trans
            (f5.same.mono (E := E) fun j hj => by simp [hj]) (fun _ h => h)
      · rename_i hbig
        obtain ⟨cap, k0, hc1, hc2⟩ := newBlockCapacity_spec (c := c) (replaced := c.size)
          (minLen := max minLen (maxShort - c.size)) (rec := rec) ho (by omega) (by omega)
        obtain ⟨H1, b1, k1, f1, _⟩ := newInternal_fresh he a.good (n := cap) (by omega) (by omega)
        obtain ⟨H2, k2, f2⟩ := f1.appendExplicit c.short c.size (by have := a.short; omega)
          (by have := a.short; omega)
        obtain ⟨cap2, v2, _, _⟩ := f2.toFresh.view
        have a2 := a.fresh f2.toFresh
        obtain ⟨c3, k3, a3, kk3, e3⟩ := a2.pushBack v2
        have hbk : back c3 = some b1 := by simp [back, e3]
        have hflat : flat ([] ++ [(⟨c.short.take c.size, some cap2⟩ : View)])
            = c.short.take c.size := by simp
        have hsz3 : c3.size = c.size := kk3.1
        obtain ⟨H', c', buf, q1, q2⟩ := appendBufferLast_spec (maxLen := maxLen) (minLen := minLen) a3 hbk
          (f2.can (by rw [hcl]; omega)) (by rw [hflat, hsz3, hcl]) hmax (by rw [hsz3]; omega)
        refine ⟨H', c', buf, ?_, ?_⟩
        · simp only [h16, k0, k1, k2, k3, Option.bind_eq_bind, Option.bind_some]
          exact q1
        · rw [hflat] at q2
          rw [content_nil]
          exact q2.trans (f2.same.mono (fun j hj => by simp [hj]))

/-- Dropping a reference only decreases reference counts. -/
theorem unref_raw : ∀ (id : Nat) {H H' : Heap}, unref H id = some H' → ∀ {j : Nat} {r : Raw},
    H[j]? = some r → ∃ r', H'[j]? = some r' ∧ r'.body = r.body ∧ r'.refs ≤ r.refs := by
  intro id
  induction id using Nat.strongRecOn with
  | ind id ih =>
    intro H H' h j r hj
    have hset : ∀ {s : Raw} {n : Nat}, H[id]? = some s → n ≤ s.refs →
        ∃ r', (H.set id { s with refs := n })[j]? = some r' ∧ r'.body = r.body ∧ r'.refs ≤ r.refs := by
      intro s n hs hn
      by_cases hij : id = j
      · subst hij
        rw [hs] at hj; cases hj
        exact ⟨_, set_get hs, rfl, hn⟩
      · exact ⟨r, by rw [set_ne hij]; exact hj, rfl, Nat.le_refl _⟩
    rw [unref_eq] at h
    split at h
    · cases h
    · rename_i s hs
      split at h
      · cases h
      · split at h
        · cases h
          exact hset hs (by omega)
        · split at h
          · split at h
            · rename_i o _ _ _ hlt
              obtain ⟨r1, h1, h2, h3⟩ := hset hs (n := 0) (Nat.zero_le _)
              obtain ⟨r2, h4, h5, h6⟩ := ih o hlt h h1
              exact ⟨r2, h4, by rw [h5, h2], by omega⟩
            · cases h
          · cases h
            exact hset hs (Nat.zero_le _)

theorem unref_can {H H' : Heap} {id j n : Nat} {hs : List Nat} (h : unref H id = some H')
    (g : Good H' hs) (hj : j ∈ hs) (hc : canAppend H j n = some true) :
    canAppend H' j n = some true := by
  obtain ⟨mem, beg, len, h1, h2⟩ := canAppend_true hc
  obtain ⟨⟨refs, body⟩, h3, h4, h5⟩ := unref_raw id h h1
  obtain ⟨r, h6, h7⟩ := g.live hj
  rw [h3] at h6; cases h6
  simp only at h4 h5 h7
  have : refs = 1 := by omega
  subst this h4
  unfold canAppend
  rw [get_one h3]
  simpa [roomAfter] using h2

theorem unref_canPrepend {H H' : Heap} {id j n : Nat} {hs : List Nat} (h : unref H id = some H')
    (g : Good H' hs) (hj : j ∈ hs) (hc : canPrepend H j n = some true) :
    canPrepend H' j n = some true := by
  obtain ⟨mem, beg, len, h1, h2⟩ := canPrepend_true hc
  obtain ⟨⟨refs, body⟩, h3, h4, h5⟩ := unref_raw id h h1
  obtain ⟨r, h6, h7⟩ := g.live hj
  rw [h3] at h6; cases h6
  simp only at h4 h5 h7
  have : refs = 1 := by omega
  subst this h4
  unfold canPrepend
  rw [get_one h3]
  simpa [roomBefore] using h2

/-- The heap was changed at a block held aside. -/
theorem Abs.heldStep {H H' : Heap} {c : Ch} {vs : List View} {b : Nat} {E : List Nat}
    (a : Abs H c vs (b :: E)) (g : Good H' (b :: (c.blocks ++ E))) (s : Same H H' (c.blocks ++ E)) :
    Abs H' c vs (b :: E) :=
  a.step (g.congr fun x => by simp [List.count_cons]; omega) (s.mono fun j hj => by simp [hj])

theorem view_tiny {v : View} : v.tiny = true ↔ v.data.length < minBlock := by
  simp [View.tiny]

theorem appendBufferReuse_spec {env : Env} (he : env.Ok) {H : Heap} {c : Ch} {vs : List View}
    {v : View} {E : List Nat} {minLen rec : Nat} {o : Opts} (ho : o.Ok)
    (a : Abs H c (vs ++ [v]) E) (h0 : v.data ≠ []) (h1 : minLen ≠ 0) (hcap : minLen ≤ maxCap) :
    ∃ H' c' b v' cap, appendBufferReuse env H c minLen rec o = some (H', c', b) ∧
      Abs H' c' (vs ++ [v']) (b :: E) ∧ v'.data = v.data ∧ view H' b = some ⟨[], cap⟩ ∧
      canAppend H' b minLen = some true ∧ Keep c c' ∧ Same H H' E := by
  obtain ⟨ids, l, g1, g2, g3, g4, g5, g6⟩ := a.last
  have hle := (a.block_le (v := v) (by simp)).1
  unfold appendBufferReuse
  simp only [g2, g3, Option.bind_eq_bind, Option.bind_some]
  cases hw : v.wasteful with
  | false =>
    obtain ⟨cap, k1, q1, q2⟩ := newBlockCapacity_spec (c := c) (replaced := 0)
      (minLen := minLen) (rec := rec) ho (by omega) (by omega)
    obtain ⟨H1, b1, k2, f1, _⟩ := newInternal_fresh he a.good (n := cap) (by omega) (by omega)
    obtain ⟨cap2, v2, _, _⟩ := f1.toFresh.view
    refine ⟨H1, c, b1, v, some cap2, ?_, a.fresh f1.toFresh, rfl, v2, f1.can (by simp; omega),
      Keep.refl c, f1.same.mono fun j hj => by simp [hj]⟩
    simp only [k1, k2, Option.bind_some, Bool.false_eq_true, if_false]
  | true =>
    obtain ⟨H1, b1, k1, f1⟩ := copyBlock_spec he a.good (id := l) (by simp [g1]) g3 h0 hle
    obtain ⟨cap1, v1, _, _⟩ := f1.toFresh.view
    have a1 := a.fresh f1.toFresh
    obtain ⟨c2, old, k2, a2, v2, kk2, e2, _⟩ := a1.setBack v1
    obtain ⟨H3, cl, k3, m1, m2, m3, m4⟩ := tryClear_spec a2.held v2
    have a3 := a2.heldStep m1 m2
    have s3 : Same H H3 E := (f1.same.mono (E := E) fun j hj => by simp [hj]).trans
      (m2.mono (E := E) fun j hj => by simp [hj]) (fun _ h => h)
    obtain ⟨can, k4⟩ := canAppend_some m1 (id := old) (by simp) minLen
    simp only [k1, k2, k3, k4, Option.bind_some, if_true]
    cases hcc : cl && can with
    | true =>
      simp only [Bool.and_eq_true] at hcc
      obtain ⟨rfl, rfl⟩ := hcc
      exact ⟨H3, c2, old, _, v.cap, rfl, a3, rfl, m3 rfl, k4, kk2, s3⟩
    | false =>
      obtain ⟨H4, k5, a4, s4⟩ := a3.unref
      obtain ⟨cap, k6, q1, q2⟩ := newBlockCapacity_spec (c := c2) (replaced := 0)
        (minLen := minLen) (rec := rec) ho (by omega) (by omega)
      obtain ⟨H5, b5, k7, f5, _⟩ := newInternal_fresh he a4.good (n := cap) (by omega) (by omega)
      obtain ⟨cap2, v5, _, _⟩ := f5.toFresh.view
      refine ⟨H5, c2, b5, _, some cap2, ?_, a4.fresh f5.toFresh, rfl, v5, f5.can (by simp; omega),
        kk2, (s3.trans s4 (fun _ h => h)).trans (f5.same.mono (E := E) fun j hj => by simp [hj])
          (fun _ h => h)⟩
      simp only [k5, k6, k7, Option.bind_some, Bool.false_eq_true, if_false]

theorem Buffered.congr {H H' : Heap} {E : List Nat} {c' : Ch} {buf : Buf}
    {f f' : Bytes → Bytes} {lo hi : Nat} (b : Buffered H E H' c' buf f lo hi) (h : f = f') :
    Buffered H E H' c' buf f' lo hi := h ▸ b

/-- `AppendBuffer()`. -/
theorem appendBuffer_spec {env : Env} (he : env.Ok) {H : Heap} {c : Ch} {E : List Nat} {d : Bytes}
    {minLen rec maxLen : Nat} {o : Opts} (ho : o.Ok) (r : Rep H c E d)
    (hmax : minLen ≤ maxLen) (hcap : minLen ≤ maxCap) (hsz : d.length + minLen ≤ maxSize) :
    ∃ H' c' buf, appendBuffer env H c minLen rec maxLen o = some (H', c', buf) ∧
      Buffered H E H' c' buf (fun bs => d ++ bs) minLen maxLen := by
  have hsize := r.size
  have hms : maxShort = 16 := rfl
  have hmc : maxCap = 2 ^ 63 - 1 := rfl
  have hmz : maxSize = 2 ^ 64 - 1 := rfl
  obtain ⟨vs, a, w, hd⟩ := r
  unfold appendBuffer
  rw [if_neg (by omega), if_neg (by omega)]
  rcases List.eq_nil_or_concat vs with hnil | ⟨ws, v, hcat⟩
  · subst hnil
    have : back c = none := by simp [back, a.nil_iff.2 rfl]
    rw [this]
    obtain ⟨H', c', buf, q1, q2⟩ := appendBufferShort_spec he (rec := rec) (maxLen := maxLen) ho a w hmax hcap
    exact ⟨H', c', buf, q1, q2.congr (by rw [hd])⟩
  · rw [List.concat_eq_append] at hcat
    subst hcat
    obtain ⟨ids, l, g1, g2, g3, g4, g5, g6⟩ := a.last
    have hne : ws ++ [v] ≠ [] := by simp
    have hd' : flat (ws ++ [v]) = d := by
      unfold content at hd; rw [if_neg hne] at hd; exact hd
    have hsv : c.size = (flat (ws ++ [v])).length := w.cons hne
    have hvl : v.data.length ≤ c.size := by rw [hsv]; simp
    have hle := (a.block_le (v := v) (by simp)).1
    obtain ⟨can, k1⟩ := canAppend_some a.good (id := l) (by simp [g1]) minLen
    rw [g2]
    simp only [k1, g3, Option.bind_eq_bind, Option.bind_some]
    cases can with
    | true =>
      simp only [if_true]
      obtain ⟨H', c', buf, q1, q2⟩ := appendBufferLast_spec (maxLen := maxLen) a g2 k1 hsv hmax
        (by omega)
      exact ⟨H', c', buf, q1, q2.congr (by rw [hd'])⟩
    | false =>
      simp only [Bool.false_eq_true, if_false]
      split
      · rename_i h0
        subst h0
        have r' : Rep H c E (d ++ []) := ⟨_, a, w, by simpa using hd⟩
        refine ⟨H, c, .empty, rfl, Nat.le_refl 0, Nat.zero_le _, ⟨[], rfl, r'⟩, Same.refl _ _, ?_⟩
        intro bs hbs
        have : bs = [] := by simpa [Buf.len] using hbs
        subst this
        exact ⟨H, c, by simp [fill], r', Same.refl _ _⟩
      · rename_i h0
        split
        · rename_i ht
          obtain ⟨cap, k2, q1, q2⟩ := newBlockCapacity_spec (c := c) (replaced := v.data.length)
            (minLen := minLen) (rec := rec) ho hvl (by omega)
          obtain ⟨H1, b1, k3, f1, _⟩ := newInternal_fresh he a.good (n := cap) (by omega) (by omega)
          obtain ⟨H2, k4, f2⟩ := f1.append v.data (by simp; omega)
          rw [List.nil_append] at f2
          obtain ⟨cap2, v2, _, _⟩ := f2.toFresh.view
          have a2 := a.fresh f2.toFresh
          obtain ⟨c3, old, k5, a3, _, kk3, _, e3⟩ := a2.setBack v2
          obtain ⟨H4, k6, a4, s4⟩ := a3.unref
          have hbk : back c3 = some b1 := by simp [back, e3]
          have hcan : canAppend H4 b1 minLen = some true :=
            unref_can k6 a4.good (by simp [e3]) (f2.can (by omega))
          have hflat : flat (ws ++ [(⟨v.data, some cap2⟩ : View)]) = flat (ws ++ [v]) := by simp
          obtain ⟨H', c', buf, q3, q4⟩ := appendBufferLast_spec (maxLen := maxLen) (minLen := minLen)
            a4 hbk hcan (by rw [hflat, kk3.1, hsv]) hmax (by rw [kk3.1]; omega)
          refine ⟨H', c', buf, ?_, ?_⟩
          · simp only [k2, k3, k4, k5, k6, Option.bind_some]
            exact q3
          · refine (q4.congr (f' := fun bs => d ++ bs) (by rw [hflat, hd'])).trans ?_
            exact (f2.same.mono (E := E) fun j hj => by simp [hj]).trans s4 (fun _ h => h)
        · rename_i ht
          have hvne : v.data ≠ [] := by
            intro hnil
            apply ht
            refine ⟨view_tiny.2 (by rw [hnil]; decide), ?_⟩
            rw [hnil]; simp; omega
          obtain ⟨H1, c1, b, v', cap, k2, a1, hv', vb, hcan, kk, s1⟩ :=
            appendBufferReuse_spec he (rec := rec) ho a hvne h0 hcap
          obtain ⟨c2, k3, a2, kk2, e2⟩ := a1.pushBack vb
          have hbk : back c2 = some b := by simp [back, e2]
          have hflat : flat ((ws ++ [v']) ++ [(⟨[], cap⟩ : View)]) = flat (ws ++ [v]) := by simp [hv']
          have hsz2 : c2.size = c.size := kk2.1.trans kk.1
          obtain ⟨H', c', buf, q3, q4⟩ := appendBufferLast_spec (maxLen := maxLen) (minLen := minLen)
            a2 hbk hcan (by rw [hflat, hsz2, hsv]) hmax (by rw [hsz2]; omega)
          refine ⟨H', c', buf, ?_, ?_⟩
          · simp only [k2, k3, Option.bind_some]
            exact q3
          · exact (q4.congr (f' := fun bs => d ++ bs) (by rw [hflat, hd'])).trans s1

/-- `Append(BytesRef)`. -/
theorem appendBytes_spec {env : Env} (he : env.Ok) {o : Opts} (ho : o.Ok) {E : List Nat}
    {src : Bytes} : ∀ {H : Heap} {c : Ch} {d : Bytes}, Rep H c E d →
    d.length + src.length ≤ maxSize →
    ∃ H' c', appendBytes env H c src o = some (H', c') ∧ Rep H' c' E (d ++ src) ∧ Same H H' E := by
  induction hn : src.length using Nat.strongRecOn generalizing src with
  | ind n ih =>
    intro H c d r hsz
    rw [appendBytes.eq_def]
    split
    · rename_i h0
      subst h0
      exact ⟨H, c, rfl, by simpa using r, Same.refl _ _⟩
    · rename_i h0
      have hpos : src.length ≠ 0 := by simpa using h0
      obtain ⟨H1, c1, buf, k1, q⟩ := appendBuffer_spec he (minLen := 1) (rec := src.length)
        (maxLen := src.length) ho r (by omega) (by decide) (by omega)
      have q1 := q.lo
      have q2 := q.hi
      rw [k1]
      simp only
      rw [dif_neg (by omega)]
      obtain ⟨H2, c2, k2, r2, s2⟩ := q.fill (src.take buf.len) (by simp; omega)
      rw [k2]
      simp only
      obtain ⟨H3, c3, k3, r3, s3⟩ := ih (src.drop buf.len).length (by simp; omega) rfl r2
        (by simp; omega)
      refine ⟨H3, c3, k3, ?_, (q.same.trans s2 (fun _ h => h)).trans s3 (fun _ h => h)⟩
      rw [List.append_assoc, List.take_append_drop] at r3
      exact r3

end Riegeli.Chn

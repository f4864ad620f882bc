import Verif.ChainOps
/-!
# Chain: prepending
-/
namespace Riegeli.Chn

theorem prependBufferFirst_spec {H : Heap} {c : Ch} {vs : List View} {v : View} {E : List Nat}
    {l minLen maxLen : Nat} (a : Abs H c (v :: vs) E) (hl : front c = some l)
    (hcan : canPrepend H l minLen = some true) (hs : c.size = (flat (v :: vs)).length)
    (hmax : minLen ≤ maxLen) (hsz : c.size + minLen ≤ maxSize) :
    ∃ H' c' buf, prependBufferFirst H c minLen maxLen = some (H', c', buf) ∧
      Buffered H E H' c' buf (fun bs => bs ++ flat (v :: vs)) minLen maxLen := by
  obtain ⟨ids, l', h1, h2, h3, h4, h5, h6⟩ := a.first
  rw [h2] at hl; cases hl
  obtain ⟨mem, beg, len, hb, hroom⟩ := canPrepend_true hcan
  have hk := (h5.body l _ hb (by simp)).1
  obtain ⟨H', beg', n, k1, k2, k3, k4, k5, k6, k7, k8⟩ :=
    blkPrependBuffer_spec h5 hb (min maxLen (maxSize - c.size))
  have hv : v = ⟨slice mem beg len, some mem.length⟩ := by
    rw [view_internal (n := 0) hb] at h3
    exact (Option.some.inj h3).symm
  obtain ⟨c1, kr, a1, kk1, e1⟩ := a.modFirst h1 k3 k4 (view_internal (n := 0) k5)
  have hsl : (slice mem beg' (len + n)).length = len + n := by
    simp [slice]; omega
  have hvl : v.data.length = len := by rw [hv]; simp [slice]; omega
  have hspl : slice mem beg' (len + n) = slice mem beg' n ++ v.data := by
    rw [hv]
    simp only
    rw [← k7]
    unfold slice
    rw [← List.drop_drop, ← List.take_append_drop n ((mem.drop beg').take (len + n))]
    rw [List.take_take, List.drop_take]
    congr 2 <;> omega
  refine ⟨H', { c1 with size := c1.size + n }, .block ⟨l, beg', n⟩, ?_, ?_, ?_, ?_, ?_, ?_⟩
  · unfold prependBufferFirst
    simp only [h2, k1, Option.bind_eq_bind, Option.bind_some]
    rw [if_pos (by rw [k2]; omega)]
    simp only [kr, Option.bind_some]
  · show minLen ≤ n; rw [k2]; omega
  · show n ≤ maxLen; rw [k2]; omega
  · refine ⟨slice mem beg' n, by simp [slice, Buf.len]; omega, ?_⟩
    refine Rep.ofBlocks (a1.ext rfl rfl rfl) (by simp) ?_ ?_
    · simp [hspl]
    · show c1.size + n = _
      rw [kk1.1, hs]
      simp [slice]
      omega
  · exact k4.mono fun j hj => by simp [hj]
  · intro bs hbs
    have hbs' : bs.length = n := hbs
    obtain ⟨H'', m1, m2, m3, m4, _, _⟩ := fillSpan_before k3 k5 hbs'
    refine ⟨H'', { c1 with size := c1.size + n }, ?_, ?_, m3.mono fun j hj => by simp [hj]⟩
    · simp [fill, m1]
    · have h1' : c1.blocks = l :: ids := by rw [e1, h1]
      have hlen : (bs ++ slice mem (beg' + n) len).length = (slice mem beg' (len + n)).length := by
        rw [k7]; simp [hbs', hsl]; simp [slice]; omega
      have a2 := a1.modFirstSame h1' m2 m3 m4 hlen
      refine Rep.ofBlocks (a2.ext rfl rfl rfl) (by simp) ?_ ?_
      · simp [k7, hv]
      · show c1.size + n = _
        rw [kk1.1, hs]; simp; omega

theorem writeMem_shift {mem : Bytes} {k n : Nat} (h : k + n ≤ mem.length) :
    ∃ mem', writeMem mem n (mem.take k) = some mem' ∧ mem'.length = mem.length ∧
      slice mem' n k = mem.take k := by
  obtain ⟨h1, h2⟩ := writeMem_some (mem := mem) (bs := mem.take k) (off := n) (by simp; omega)
  refine ⟨_, h1, h2, ?_⟩
  unfold slice
  rw [List.append_assoc, List.drop_append_of_le_length (by simp; omega)]
  rw [List.drop_of_length_le (l := mem.take n) (by simp; omega), List.nil_append]
  rw [List.take_append_of_le_length (by simp; omega), List.take_take]
  simp

theorem writeMem_begin {mem bs : Bytes} {k : Nat} (h : bs.length + k ≤ mem.length) :
    ∃ mem', writeMem mem 0 bs = some mem' ∧ mem'.length = mem.length ∧
      mem'.take (bs.length + k) = bs ++ slice mem bs.length k := by
  obtain ⟨h1, h2⟩ := writeMem_some (mem := mem) (bs := bs) (off := 0) (by omega)
  refine ⟨_, h1, h2, ?_⟩
  simp [slice, List.take_append]
  rw [List.take_of_length_le (by omega)]

theorem prependBufferShort_spec {env : Env} (he : env.Ok) {H : Heap} {c : Ch} {E : List Nat}
    {minLen rec maxLen : Nat} {o : Opts} (ho : o.Ok) (a : Abs H c [] E) (w : Wf c [])
    (hmax : minLen ≤ maxLen) (hcap : minLen ≤ maxCap) :
    ∃ H' c' buf, prependBufferShort env H c minLen rec maxLen o = some (H', c', buf) ∧
      Buffered H E H' c' buf (fun bs => bs ++ content c []) minLen maxLen := by
  obtain ⟨w1, w2⟩ := w.nil rfl
  have hb : c.blocks = [] := a.nil_iff.2 rfl
  have hms : maxShort = 16 := rfl
  have hmc : maxCap = 2 ^ 63 - 1 := rfl
  have hmz : maxSize = 2 ^ 64 - 1 := rfl
  have hcl : (c.short.take c.size).length = c.size := by
    have := a.short; simp; omega
  unfold prependBufferShort
  rw [if_neg (by omega)]
  split
  · rename_i hc
    have hE : ensureHasHere c = some { c with arr := none } := by
      unfold ensureHasHere; rw [if_pos hb]
    simp only [hE, Option.bind_eq_bind, Option.bind_some]
    generalize hn : min maxLen (maxShort - c.size) = n
    have hg : Good H ([] ++ E) := by rw [← hb]; exact a.good
    obtain ⟨sh, m1, m2, m3⟩ := writeMem_shift (mem := c.short) (k := c.size) (n := n)
      (by have := a.short; omega)
    simp only [m1, Option.bind_some]
    refine ⟨_, _, _, rfl, ?_, ?_, ?_, Same.refl _ _, ?_⟩
    · show minLen ≤ n; omega
    · show n ≤ maxLen; omega
    · refine ⟨sh.take n, ?_, ?_⟩
      · have := a.short
        simp [Buf.len]; omega
      · refine Rep.ofShort ⟨?_, ?_, by simp [ArrOk], m2.trans a.short⟩ ?_ (by simp) ?_
        · simp only [hb]; exact hg
        · simp only [hb]; rfl
        · simp only; omega
        · simp only [content_nil]
          rw [← m3, Nat.add_comm c.size n, List.take_add]
          rfl
    · intro bs hbs
      have hbs' : bs.length = n := hbs
      obtain ⟨mem', p1, p2, p3⟩ := writeMem_begin (mem := sh) (bs := bs) (k := c.size)
        (by have := a.short; omega)
      refine ⟨H, _, by simp [fill, p1, hbs']; rfl, ?_, Same.refl _ _⟩
      refine Rep.ofShort ⟨?_, ?_, by simp [ArrOk], ?_⟩ ?_ (by simp) ?_
      · simp only [hb]; exact hg
      · simp only [hb]; rfl
      · simp only; rw [p2, m2]; exact a.short
      · simp only; omega
      · simp only [content_nil]; rw [← hbs', Nat.add_comm, p3, hbs', m3]
  · split
    · rename_i _ h0
      subst h0
      refine ⟨H, c, .empty, rfl, ?_, ?_, ⟨[], rfl, ?_⟩, Same.refl _ _, ?_⟩
      · exact Nat.le_refl 0
      · exact Nat.zero_le _
      · exact ⟨[], a, w, by simp⟩
      · intro bs hbs
        have : bs = [] := by simpa [Buf.len] using hbs
        subst this
        exact ⟨H, c, by simp [fill], ⟨[], a, w, by simp⟩, Same.refl _ _⟩
    · rename_i hc0 h0
      have h16 := short16_some a w
      have hsd := shortData_some a w
      split
      · -- two blocks
        rename_i hbig
        obtain ⟨H1, b1, k1, f1, _⟩ := newInternal_fresh he a.good (n := maxShort) (by decide) (by decide)
        obtain ⟨H2, k2, f2⟩ := f1.appendExplicit c.short c.size (by have := a.short; omega)
          (by have := a.short; omega)
        obtain ⟨cap2, v2, _, _⟩ := f2.toFresh.view
        have a2 := a.fresh f2.toFresh
        obtain ⟨c3, k3, a3, kk3, e3⟩ := a2.pushFront v2
        obtain ⟨cap, k4, hc1, hc2⟩ := newBlockCapacity_spec (c := c3) (replaced := 0) (minLen := minLen)
          (rec := rec) ho (by omega) (by omega)
        obtain ⟨H5, b5, k5, _, f5⟩ := newInternal_fresh he a3.good (n := cap) (by omega) (by omega)
        obtain ⟨cap5, v5, _, _⟩ := f5.toFresh.view
        have a5 := a3.fresh f5.toFresh
        obtain ⟨c6, k6, a6, kk6, e6⟩ := a5.pushFront v5
        have hbk : front c6 = some b5 := by simp [front, e6]
        have hflat : flat ((⟨[], some cap5⟩ : View) :: [(⟨c.short.take c.size, some cap2⟩ : View)])
            = c.short.take c.size := by simp
        have hsz6 : c6.size = c.size := kk6.1.trans kk3.1
        obtain ⟨H', c', buf, q1, q2⟩ := prependBufferFirst_spec (maxLen := maxLen) (minLen := minLen) a6 hbk
          (f5.can (by simp; omega)) (by rw [hflat, hsz6, hcl]) hmax (by rw [hsz6]; omega)
        refine ⟨H', c', buf, ?_, ?_⟩
        · simp only [h16, k1, k2, k3, k4, k5, k6, Option.bind_eq_bind, Option.bind_some]
          exact q1
        · rw [hflat] at q2
          rw [content_nil]
          refine q2.trans ?_
          exact (f2.same.mono (fun j hj => by simp [hj])).trans
            (f5.same.mono (E := E) fun j hj => by simp [hj]) (fun _ h => h)
      · rename_i hbig
        obtain ⟨cap, k0, hc1, hc2⟩ := newBlockCapacity_spec (c := c) (replaced := c.size)
          (minLen := minLen) (rec := rec) ho (by omega) (by omega)
        obtain ⟨H1, b1, k1, _, f1⟩ := newInternal_fresh he a.good (n := cap) (by omega) (by omega)
        obtain ⟨H2, k2, f2⟩ := f1.prepend (c.short.take c.size) (by rw [hcl]; simp; omega)
        rw [List.append_nil] at f2
        obtain ⟨cap2, v2, _, _⟩ := f2.toFresh.view
        have a2 := a.fresh f2.toFresh
        obtain ⟨c3, k3, a3, kk3, e3⟩ := a2.pushFront v2
        have hbk : front c3 = some b1 := by simp [front, e3]
        have hflat : flat ((⟨c.short.take c.size, some cap2⟩ : View) :: [])
            = c.short.take c.size := by simp
        have hsz3 : c3.size = c.size := kk3.1
        obtain ⟨H', c', buf, q1, q2⟩ := prependBufferFirst_spec (maxLen := maxLen) (minLen := minLen) a3 hbk
          (f2.can (by rw [hcl]; omega)) (by rw [hflat, hsz3, hcl]) hmax (by rw [hsz3]; omega)
        refine ⟨H', c', buf, ?_, ?_⟩
        · simp only [hsd, k0, k1, k2, k3, Option.bind_eq_bind, Option.bind_some]
          exact q1
        · rw [hflat] at q2
          rw [content_nil]
          exact q2.trans (f2.same.mono (fun j hj => by simp [hj]))

theorem prependBufferReuse_spec {env : Env} (he : env.Ok) {H : Heap} {c : Ch} {vs : List View}
    {v : View} {E : List Nat} {minLen rec : Nat} {o : Opts} (ho : o.Ok)
    (a : Abs H c (v :: vs) E) (h0 : v.data ≠ []) (h1 : minLen ≠ 0) (hcap : minLen ≤ maxCap) :
    ∃ H' c' b v' cap, prependBufferReuse env H c minLen rec o = some (H', c', b) ∧
      Abs H' c' (v' :: vs) (b :: E) ∧ v'.data = v.data ∧ view H' b = some ⟨[], cap⟩ ∧
      canPrepend H' b minLen = some true ∧ Keep c c' ∧ Same H H' E := by
  obtain ⟨ids, l, g1, g2, g3, g4, g5, g6⟩ := a.first
  have hle := (a.block_le (v := v) (by simp)).1
  unfold prependBufferReuse
  simp only [g2, g3, Option.bind_eq_bind, Option.bind_some]
  cases hw : v.wasteful with
  | false =>
    obtain ⟨cap, k1, q1, q2⟩ := newBlockCapacity_spec (c := c) (replaced := 0)
      (minLen := minLen) (rec := rec) ho (by omega) (by omega)
    obtain ⟨H1, b1, k2, _, f1⟩ := newInternal_fresh he a.good (n := cap) (by omega) (by omega)
    obtain ⟨cap2, v2, _, _⟩ := f1.toFresh.view
    refine ⟨H1, c, b1, v, some cap2, ?_, a.fresh f1.toFresh, rfl, v2, f1.can (by simp; omega),
      Keep.refl c, f1.same.mono fun j hj => by simp [hj]⟩
    simp only [k1, k2, Option.bind_some, Bool.false_eq_true, if_false]
  | true =>
    obtain ⟨H1, b1, k1, f1⟩ := copyBlock_spec he a.good (id := l) (by simp [g1]) g3 h0 hle
    obtain ⟨cap1, v1, _, _⟩ := f1.toFresh.view
    have a1 := a.fresh f1.toFresh
    obtain ⟨c2, old, k2, a2, v2, kk2, e2, _⟩ := a1.setFrontSameSize v1 rfl
    obtain ⟨H3, cl, k3, m1, m2, m3, m4⟩ := tryClear_spec a2.held v2
    have a3 := a2.heldStep m1 m2
    have s3 : Same H H3 E := (f1.same.mono (E := E) fun j hj => by simp [hj]).trans
      (m2.mono (E := E) fun j hj => by simp [hj]) (fun _ h => h)
    obtain ⟨can, k4⟩ := canPrepend_some m1 (id := old) (by simp) minLen
    simp only [k1, k2, k3, k4, Option.bind_some, if_true]
    cases hcc : cl && can with
    | true =>
      simp only [Bool.and_eq_true] at hcc
      obtain ⟨rfl, rfl⟩ := hcc
      exact ⟨H3, c2, old, _, v.cap, rfl, a3, rfl, m3 rfl, k4, kk2, s3⟩
    | false =>
      obtain ⟨H4, k5, a4, s4⟩ := a3.unref
      obtain ⟨cap, k6, q1, q2⟩ := newBlockCapacity_spec (c := c2) (replaced := 0)
        (minLen := minLen) (rec := rec) ho (by omega) (by omega)
      obtain ⟨H5, b5, k7, _, f5⟩ := newInternal_fresh he a4.good (n := cap) (by omega) (by omega)
      obtain ⟨cap2, v5, _, _⟩ := f5.toFresh.view
      refine ⟨H5, c2, b5, _, some cap2, ?_, a4.fresh f5.toFresh, rfl, v5, f5.can (by simp; omega),
        kk2, (s3.trans s4 (fun _ h => h)).trans (f5.same.mono (E := E) fun j hj => by simp [hj])
          (fun _ h => h)⟩
      simp only [k5, k6, k7, Option.bind_some, Bool.false_eq_true, if_false]

/-- `PrependBuffer()`. -/
theorem prependBuffer_spec {env : Env} (he : env.Ok) {H : Heap} {c : Ch} {E : List Nat} {d : Bytes}
    {minLen rec maxLen : Nat} {o : Opts} (ho : o.Ok) (r : Rep H c E d)
    (hmax : minLen ≤ maxLen) (hcap : minLen ≤ maxCap) (hsz : d.length + minLen ≤ maxSize) :
    ∃ H' c' buf, prependBuffer env H c minLen rec maxLen o = some (H', c', buf) ∧
      Buffered H E H' c' buf (fun bs => bs ++ d) minLen maxLen := by
  have hsize := r.size
  have hms : maxShort = 16 := rfl
  have hmc : maxCap = 2 ^ 63 - 1 := rfl
  have hmz : maxSize = 2 ^ 64 - 1 := rfl
  obtain ⟨vs, a, w, hd⟩ := r
  unfold prependBuffer
  rw [if_neg (by omega), if_neg (by omega)]
  cases vs with
  | nil =>
    have : front c = none := by simp [front, a.nil_iff.2 rfl]
    rw [this]
    obtain ⟨H', c', buf, q1, q2⟩ := prependBufferShort_spec he (rec := rec) (maxLen := maxLen) ho a w hmax hcap
    exact ⟨H', c', buf, q1, q2.congr (by rw [hd])⟩
  | cons v ws =>
    obtain ⟨ids, l, g1, g2, g3, g4, g5, g6⟩ := a.first
    have hne : v :: ws ≠ [] := by simp
    have hd' : flat (v :: ws) = d := by
      unfold content at hd; rw [if_neg hne] at hd; exact hd
    have hsv : c.size = (flat (v :: ws)).length := w.cons hne
    have hvl : v.data.length ≤ c.size := by rw [hsv]; simp
    have hle := (a.block_le (v := v) (by simp)).1
    obtain ⟨can, k1⟩ := canPrepend_some a.good (id := l) (by simp [g1]) minLen
    rw [g2]
    simp only [k1, g3, Option.bind_eq_bind, Option.bind_some]
    cases can with
    | true =>
      simp only [if_true]
      obtain ⟨H', c', buf, q1, q2⟩ := prependBufferFirst_spec (maxLen := maxLen) a g2 k1 hsv hmax
        (by omega)
      exact ⟨H', c', buf, q1, q2.congr (by rw [hd'])⟩
    | false =>
      simp only [Bool.false_eq_true, if_false]
      split
      · rename_i h0
        subst h0
        have r' : Rep H c E ([] ++ d) := ⟨_, a, w, by simpa using hd⟩
        refine ⟨H, c, .empty, rfl, Nat.le_refl 0, Nat.zero_le _, ⟨[], rfl, r'⟩, Same.refl _ _, ?_⟩
        intro bs hbs
        have : bs = [] := by simpa [Buf.len] using hbs
        subst this
        exact ⟨H, c, by simp [fill], r', Same.refl _ _⟩
      · rename_i h0
        split
        · rename_i ht
          obtain ⟨cap, k2, q1, q2⟩ := newBlockCapacity_spec (c := c) (replaced := v.data.length)
            (minLen := minLen) (rec := rec) ho hvl (by omega)
          obtain ⟨H1, b1, k3, _, f1⟩ := newInternal_fresh he a.good (n := cap) (by omega) (by omega)
          obtain ⟨H2, k4, f2⟩ := f1.prepend v.data (by simp; omega)
          rw [List.append_nil] at f2
          obtain ⟨cap2, v2, _, _⟩ := f2.toFresh.view
          have a2 := a.fresh f2.toFresh
          obtain ⟨c3, old, k5, a3, _, kk3, _, e3⟩ := a2.setFront v2
          obtain ⟨H4, k6, a4, s4⟩ := a3.unref
          have hbk : front c3 = some b1 := by simp [front, e3]
          have hcan : canPrepend H4 b1 minLen = some true :=
            unref_canPrepend k6 a4.good (by simp [e3]) (f2.can (by omega))
          have hflat : flat ((⟨v.data, some cap2⟩ : View) :: ws) = flat (v :: ws) := by simp
          obtain ⟨H', c', buf, q3, q4⟩ := prependBufferFirst_spec (maxLen := maxLen) (minLen := minLen)
            a4 hbk hcan (by rw [hflat, kk3.1, hsv]) hmax (by rw [kk3.1]; omega)
          refine ⟨H', c', buf, ?_, ?_⟩
          · simp only [k2, k3, k4, k5, k6, Option.bind_some]
            exact q3
          · refine (q4.congr (f' := fun bs => bs ++ d) (by rw [hflat, hd'])).trans ?_
            exact (f2.same.mono (E := E) fun j hj => by simp [hj]).trans s4 (fun _ h => h)
        · rename_i ht
          have hvne : v.data ≠ [] := by
            intro hnil
            apply ht
            refine ⟨view_tiny.2 (by rw [hnil]; decide), ?_⟩
            rw [hnil]; simp; omega
          obtain ⟨H1, c1, b, v', cap, k2, a1, hv', vb, hcan, kk, s1⟩ :=
            prependBufferReuse_spec he (rec := rec) ho a hvne h0 hcap
          obtain ⟨c2, k3, a2, kk2, e2⟩ := a1.pushFront vb
          have hbk : front c2 = some b := by simp [front, e2]
          have hflat : flat ((⟨[], cap⟩ : View) :: v' :: ws) = flat (v :: ws) := by simp [hv']
          have hsz2 : c2.size = c.size := kk2.1.trans kk.1
          obtain ⟨H', c', buf, q3, q4⟩ := prependBufferFirst_spec (maxLen := maxLen) (minLen := minLen)
            a2 hbk hcan (by rw [hflat, hsz2, hsv]) hmax (by rw [hsz2]; omega)
          refine ⟨H', c', buf, ?_, ?_⟩
          · simp only [k2, k3, Option.bind_some]
            exact q3
          · exact (q4.congr (f' := fun bs => bs ++ d) (by rw [hflat, hd'])).trans s1

/-- `Prepend(BytesRef)`. -/
theorem prependBytes_spec {env : Env} (he : env.Ok) {o : Opts} (ho : o.Ok) {E : List Nat}
    {src : Bytes} : ∀ {H : Heap} {c : Ch} {d : Bytes}, Rep H c E d →
    d.length + src.length ≤ maxSize →
    ∃ H' c', prependBytes env H c src o = some (H', c') ∧ Rep H' c' E (src ++ d) ∧ Same H H' E := by
  induction hn : src.length using Nat.strongRecOn generalizing src with
  | ind n ih =>
    intro H c d r hsz
    rw [prependBytes.eq_def]
    split
    · rename_i h0
      subst h0
      exact ⟨H, c, rfl, by simpa using r, Same.refl _ _⟩
    · rename_i h0
      have hpos : src.length ≠ 0 := by simpa using h0
      obtain ⟨H1, c1, buf, k1, q⟩ := prependBuffer_spec he (minLen := 1) (rec := src.length)
        (maxLen := src.length) ho r (by omega) (by decide) (by omega)
      have q1 := q.lo
      have q2 := q.hi
      rw [k1]
      simp only
      rw [dif_neg (by omega)]
      obtain ⟨H2, c2, k2, r2, s2⟩ := q.fill (src.drop (src.length - buf.len)) (by simp; omega)
      rw [k2]
      simp only
      obtain ⟨H3, c3, k3, r3, s3⟩ := ih (src.take (src.length - buf.len)).length (by simp; omega) rfl r2
        (by simp; omega)
      refine ⟨H3, c3, k3, ?_, (q.same.trans s2 (fun _ h => h)).trans s3 (fun _ h => h)⟩
      rw [← List.append_assoc, List.take_append_drop] at r3
      exact r3

end Riegeli.Chn

import Verif.TrSize
import Verif.WriterTotal
/-!
# Transposed chunks: buffers and buckets are read back
-/
namespace Riegeli.Tr

/-! ## Division into buckets -/

theorem bucketSizesLoop_spec (bucketSize : Nat) : ∀ (l : List Nat) (g : List Nat) (G : List (List Nat)),
    (∀ x ∈ l, 0 < x) → (∀ x ∈ g, 0 < x) → (∀ y ∈ G, y ≠ []) →
    ∃ G' : List (List Nat), bucketSizesLoop bucketSize l l.sum g.sum (G.map List.sum) = G'.map List.sum ∧
      G'.flatten = l.reverse ++ g ++ G.flatten ∧ ∀ y ∈ G', y ≠ []
  | [], g, G, _, hg, hG => by
    unfold bucketSizesLoop
    by_cases h : g = []
    · subst h
      rw [if_neg (by simp)]
      exact ⟨G, rfl, by simp, hG⟩
    · have hpos : 0 < g.sum := by
        obtain ⟨x, g', rfl⟩ := List.exists_cons_of_ne_nil h
        have := hg x List.mem_cons_self
        simp only [List.sum_cons]; omega
      rw [if_pos hpos]
      refine ⟨g :: G, by simp, by simp, ?_⟩
      intro y hy
      rcases List.mem_cons.1 hy with rfl | hy
      · exact h
      · exact hG y hy
  | sz :: rest, g, G, hl, hg, hG => by
    have hsz : 0 < sz := hl sz List.mem_cons_self
    have hrest : ∀ x ∈ rest, 0 < x := fun x hx => hl x (List.mem_cons_of_mem _ hx)
    have hsub : (sz :: rest).sum - sz = rest.sum := by rw [List.sum_cons]; omega
    unfold bucketSizesLoop
    simp only [hsub]
    -- the bucket to which the buffer is added
    have key : ∀ (g1 : List Nat) (G1 : List (List Nat)), (∀ x ∈ g1, 0 < x) → (∀ y ∈ G1, y ≠ []) →
        g1 ++ G1.flatten = g ++ G.flatten →
        ∃ G' : List (List Nat), (if rest.sum ≤ bucketSize / 2 then
            if g1.sum + sz + rest.sum > 0 then (g1.sum + sz + rest.sum) :: G1.map List.sum else G1.map List.sum
          else bucketSizesLoop bucketSize rest rest.sum (g1.sum + sz) (G1.map List.sum)) = G'.map List.sum ∧
          G'.flatten = (sz :: rest).reverse ++ g ++ G.flatten ∧ ∀ y ∈ G', y ≠ [] := by
      intro g1 G1 hg1 hG1 he
      split
      · rw [if_pos (by omega)]
        refine ⟨(rest.reverse ++ sz :: g1) :: G1, ?_, ?_, ?_⟩
        · simp only [List.map_cons, List.sum_append_nat, List.sum_cons]
          congr 1
          rw [(List.reverse_perm rest).sum_nat]; omega
        · simp only [List.flatten_cons, List.reverse_cons, List.append_assoc, List.cons_append, List.nil_append, he]
        · intro y hy
          rcases List.mem_cons.1 hy with rfl | hy
          · simp
          · exact hG1 y hy
      · obtain ⟨G', e1, e2, e3⟩ := bucketSizesLoop_spec bucketSize rest (sz :: g1) G1 hrest
          (by intro x hx
              rcases List.mem_cons.1 hx with rfl | hx
              · exact hsz
              · exact hg1 x hx) hG1
        refine ⟨G', ?_, ?_, e3⟩
        · rw [← e1]; simp only [List.sum_cons]; rw [Nat.add_comm sz]
        · rw [e2]
          simp only [List.reverse_cons, List.append_assoc, List.cons_append, List.nil_append, he]
    by_cases hnew : (decide (g.sum > 0) && decide (g.sum + sz / 2 ≥ bucketSize)) = true
    · simp only [hnew, if_true]
      have hne : g ≠ [] := by
        rintro rfl; simp at hnew
      have := key [] (g :: G) (by simp) (by
        intro y hy
        rcases List.mem_cons.1 hy with rfl | hy
        · exact hne
        · exact hG y hy) (by simp)
      simpa using this
    · simp only [hnew]
      exact key g G hg hG rfl

theorem bucketSizes_spec (bucketSize : Nat) (sizes : List Nat) (h : ∀ x ∈ sizes, 0 < x) :
    ∃ G : List (List Nat), bucketSizes bucketSize sizes = G.map List.sum ∧ G.flatten = sizes ∧ ∀ y ∈ G, y ≠ [] := by
  have := bucketSizesLoop_spec bucketSize sizes.reverse [] [] (by simpa using h) (by simp) (by simp)
  rw [(List.reverse_perm sizes).sum_nat] at this
  simpa [bucketSizes] using this

/-- A division of the sizes is a division of what has these sizes. -/
theorem group_lift : ∀ (G : List (List Nat)) (l : List Bytes), G.flatten = l.map (·.length) →
    ∃ B : List (List Bytes), B.flatten = l ∧ B.map (fun g => g.map (·.length)) = G
  | [], l, h => by
    cases l with
    | nil => exact ⟨[], rfl, rfl⟩
    | cons x l => simp at h
  | g :: G, l, h => by
    simp only [List.flatten_cons] at h
    have hg : g = (l.take g.length).map (·.length) := by
      rw [List.map_take, ← h, List.take_left' rfl]
    have hG : G.flatten = (l.drop g.length).map (·.length) := by
      rw [List.map_drop, ← h, List.drop_left' rfl]
    obtain ⟨B, h1, h2⟩ := group_lift G _ hG
    refine ⟨l.take g.length :: B, ?_, ?_⟩
    · rw [List.flatten_cons, h1, List.take_append_drop]
    · rw [List.map_cons, h2, ← hg]

/-! ## Writing -/

/-- The compressed bucket. -/
def bucket (C : Codec) (t : UInt8) (g : List Bytes) : Bytes := encodeCompressed C t g.flatten

/-- Buckets `G` are written, `g` are the buffers in the compressor, whose pledged size is `n`. -/
structure WOk (C : Codec) (t : UInt8) (s : WSt) (G : List (List Bytes)) (g : List Bytes) (n : Nat) : Prop where
  out : s.out = G.flatMap (bucket C t)
  lens : s.bucketLens = G.map (fun g => (bucket C t g).length)
  sizes : s.bufSizes = (G.flatten ++ g).map (·.length)
  cur : s.cur = g.flatten
  pledged : g ≠ [] → s.pledged = some n
  ne : ∀ x ∈ G, x ≠ []
  pos : ∀ x ∈ G.flatten ++ g, x ≠ []

theorem flatten_ne_nil {g : List Bytes} (h : g ≠ []) (hp : ∀ x ∈ g, x ≠ []) : g.flatten ≠ [] := by
  obtain ⟨x, g', rfl⟩ := List.exists_cons_of_ne_nil h
  simp [hp x List.mem_cons_self]

theorem WOk.flush {C : Codec} {t : UInt8} {s : WSt} {G : List (List Bytes)} {g : List Bytes}
    (h : WOk C t s G g g.flatten.length) (hg : g ≠ []) :
    ∃ s', s.flush C t = some s' ∧ ∀ n, WOk C t s' (G ++ [g]) [] n := by
  have hne : s.cur ≠ [] := by rw [h.cur]; exact flatten_ne_nil hg (fun x hx => h.pos x (List.mem_append_right _ hx))
  unfold WSt.flush
  rw [if_neg hne, h.pledged hg]
  simp only
  rw [if_neg (by rw [h.cur]; simp)]
  refine ⟨_, rfl, ?_⟩
  intro n
  constructor
  · simp only [h.out, h.cur, List.flatMap_append, List.flatMap_cons, List.flatMap_nil, List.append_nil, bucket]
  · simp only [h.lens, h.cur, List.map_append, List.map_cons, List.map_nil, bucket]
  · simp [h.sizes]
  · rfl
  · simp
  · intro x hx
    rcases List.mem_append.1 hx with hx | hx
    · exact h.ne x hx
    · rw [List.mem_singleton] at hx; rw [hx]; exact hg
  · intro x hx
    apply h.pos x
    simpa using hx

theorem WOk.flush_nil {C : Codec} {t : UInt8} {s : WSt} {G : List (List Bytes)} {n : Nat}
    (h : WOk C t s G [] n) : s.flush C t = some s := by
  unfold WSt.flush
  rw [if_pos (by rw [h.cur]; rfl)]

/-- Starting a bucket. -/
theorem WOk.start {C : Codec} {t : UInt8} {s : WSt} {G : List (List Bytes)} {g : List Bytes}
    (h : WOk C t s G g g.flatten.length) {b : Bytes} (hb : b ≠ []) (n : Nat) :
    ∃ s' G', s.addBuffer C t (some n) b = some s' ∧ WOk C t s' G' [b] n ∧
      (G' = if g = [] then G else G ++ [g]) := by
  unfold WSt.addBuffer
  simp only
  have hmk : ∀ (s1 : WSt) (G1 : List (List Bytes)), WOk C t s1 G1 [] 0 →
      WOk C t { s1 with pledged := some n, cur := b, bufSizes := s1.bufSizes ++ [b.length] } G1 [b] n := by
    intro s1 G1 h1
    constructor
    · exact h1.out
    · exact h1.lens
    · simp [h1.sizes]
    · simp
    · intro _; rfl
    · exact h1.ne
    · intro x hx
      rcases List.mem_append.1 hx with hx | hx
      · exact h1.pos x (List.mem_append_left _ hx)
      · rw [List.mem_singleton] at hx; rw [hx]; exact hb
  have hcomm : ∀ (f : WSt), ({ f with bufSizes := f.bufSizes ++ [b.length] } : WSt).flush C t =
      (f.flush C t).map (fun f => { f with bufSizes := f.bufSizes ++ [b.length] }) := by
    intro f
    unfold WSt.flush
    simp only
    split
    · rfl
    · cases f.pledged with
      | none => rfl
      | some k =>
        simp only
        split <;> rfl
  rw [hcomm]
  by_cases hg : g = []
  · subst hg
    rw [h.flush_nil]
    exact ⟨_, G, rfl, hmk s G ⟨h.out, h.lens, h.sizes, h.cur, by simp, h.ne, h.pos⟩, by simp⟩
  · obtain ⟨s', h1, h2⟩ := h.flush hg
    rw [h1]
    exact ⟨_, G ++ [g], rfl, hmk s' _ (h2 0), by simp [hg]⟩

/-- Continuing a bucket. -/
theorem WOk.more {C : Codec} {t : UInt8} {s : WSt} {G : List (List Bytes)} {g : List Bytes} {n : Nat}
    (h : WOk C t s G g n) (hg : g ≠ []) {b : Bytes} (hb : b ≠ []) :
    ∃ s', s.addBuffer C t none b = some s' ∧ WOk C t s' G (g ++ [b]) n := by
  refine ⟨_, rfl, ?_⟩
  constructor
  · exact h.out
  · exact h.lens
  · simp [h.sizes]
  · simp [h.cur]
  · intro _; exact h.pledged hg
  · exact h.ne
  · intro x hx
    rw [← List.append_assoc] at hx
    rcases List.mem_append.1 hx with hx | hx
    · exact h.pos x hx
    · rw [List.mem_singleton] at hx; rw [hx]; exact hb

theorem length_pos_of_ne {b : Bytes} (h : b ≠ []) : 0 < b.length := List.length_pos_iff.2 h

/-- The rest of a bucket. -/
theorem addBuffers_rest {C : Codec} {t : UInt8} (bs : List Bytes) (sizes : List Nat) :
    ∀ (rest : List Bytes) {s : WSt} {G : List (List Bytes)} {g : List Bytes} {n : Nat},
      (∀ x ∈ rest, x ≠ []) → g ≠ [] → WOk C t s G g n → n = g.flatten.length + rest.flatten.length →
      ∃ s', addBuffers C t (rest ++ bs) rest.flatten.length sizes s = addBuffers C t bs 0 sizes s' ∧
        WOk C t s' G (g ++ rest) (g ++ rest).flatten.length
  | [], s, G, g, n, _, _, h, hn => by
    refine ⟨s, rfl, ?_⟩
    simp only [List.flatten_nil, List.length_nil, Nat.add_zero] at hn
    rw [List.append_nil, ← hn]; exact h
  | b :: rest, s, G, g, n, hpos, hg, h, hn => by
    have hb := hpos b List.mem_cons_self
    have := length_pos_of_ne hb
    obtain ⟨s1, h1, h2⟩ := h.more hg hb
    obtain ⟨s2, h3, h4⟩ := addBuffers_rest bs sizes rest (fun x hx => hpos x (List.mem_cons_of_mem _ hx))
      (by simp) h2 (by
        rw [hn]; simp only [List.flatten_cons, List.flatten_append, List.length_append, List.flatten_nil, List.append_nil]
        omega)
    refine ⟨s2, ?_, by simpa using h4⟩
    rw [← h3]
    simp only [List.cons_append, List.flatten_cons, List.length_append]
    rw [addBuffers.eq_def]
    simp only
    rw [if_neg (by omega), if_neg (by omega), h1]
    simp only
    rw [Nat.add_sub_cancel_left]

theorem addBuffers_spec {C : Codec} {t : UInt8} : ∀ (B : List (List Bytes)) {s : WSt} {G : List (List Bytes)} {g : List Bytes},
    (∀ y ∈ B, y ≠ []) → (∀ x ∈ B.flatten, x ≠ []) → WOk C t s G g g.flatten.length →
    ∃ s' G' g', addBuffers C t B.flatten 0 (B.map (fun y => (y.map (·.length)).sum)) s = some s' ∧
      WOk C t s' G' g' g'.flatten.length ∧ G'.flatten ++ g' = G.flatten ++ g ++ B.flatten
  | [], s, G, g, _, _, h => by
    refine ⟨s, G, g, ?_, h, by simp⟩
    simp [addBuffers]
  | y :: B, s, G, g, hne, hpos, h => by
    obtain ⟨b, y', rfl⟩ := List.exists_cons_of_ne_nil (hne y List.mem_cons_self)
    have hb : b ≠ [] := hpos b (by simp)
    have hsum : ((b :: y').map (·.length)).sum = b.length + y'.flatten.length := by
      rw [List.map_cons, List.sum_cons, List.length_flatten]
    obtain ⟨s1, G1, h1, h2, h3⟩ := h.start hb (b.length + y'.flatten.length)
    obtain ⟨s2, h4, h5⟩ := addBuffers_rest B.flatten (B.map (fun y => (y.map (·.length)).sum)) y'
      (fun x hx => hpos x (by simp [hx])) (by simp) h2 (by simp)
    obtain ⟨s3, G3, g3, h6, h7, h8⟩ := addBuffers_spec B (fun z hz => hne z (List.mem_cons_of_mem _ hz))
      (fun x hx => hpos x (by simp only [List.flatten_cons]; exact List.mem_append_right _ hx)) h5
    refine ⟨s3, G3, g3, ?_, h7, ?_⟩
    · simp only [List.map_cons (l := B), hsum, List.flatten_cons, List.cons_append]
      rw [addBuffers.eq_def]
      simp only [if_true]
      rw [if_neg (by omega), h1]
      simp only
      rw [Nat.add_sub_cancel_left, h4, h6]
    · rw [h8, h3]
      split
      · rename_i hg; subst hg; simp
      · simp

theorem addTypes_spec {C : Codec} {t : UInt8} (bucketSize : Nat) : ∀ (ls : List (List Bytes)) {s : WSt}
    {G : List (List Bytes)} {g : List Bytes}, (∀ x ∈ ls.flatten, x ≠ []) → WOk C t s G g g.flatten.length →
    ∃ s' G' g', addTypes C t bucketSize ls s = some s' ∧
      WOk C t s' G' g' g'.flatten.length ∧ G'.flatten ++ g' = G.flatten ++ g ++ ls.flatten
  | [], s, G, g, _, h => ⟨s, G, g, rfl, h, by simp⟩
  | l :: ls, s, G, g, hpos, h => by
    have hl : ∀ x ∈ l, x ≠ [] := fun x hx => hpos x (by simp [hx])
    obtain ⟨N, e1, e2, e3⟩ := bucketSizes_spec bucketSize (l.map (·.length)) (by
      intro x hx
      obtain ⟨b, hb, rfl⟩ := List.mem_map.1 hx
      exact length_pos_of_ne (hl b hb))
    obtain ⟨B, e4, e5⟩ := group_lift N l e2
    obtain ⟨s1, G1, g1, h1, h2, h3⟩ := addBuffers_spec B (by
      intro y hy hy0
      refine e3 (y.map (·.length)) ?_ (by simp [hy0])
      rw [← e5]; exact List.mem_map.2 ⟨y, hy, rfl⟩) (by rw [e4]; exact hl) h
    obtain ⟨s2, G2, g2, h4, h5, h6⟩ := addTypes_spec bucketSize ls (fun x hx => hpos x (by
      simp only [List.flatten_cons]; exact List.mem_append_right _ hx)) h2
    refine ⟨s2, G2, g2, ?_, h5, ?_⟩
    · unfold addTypes
      rw [e1, ← e5, List.map_map]
      have : (List.sum ∘ fun g : List Bytes => g.map (·.length)) = (fun y => (y.map (·.length)).sum) := rfl
      rw [this, ← e4, h1]
      exact h4
    · rw [h6, h3, e4]; simp

/-- The values of all buffers in order. -/
def bufValues (s : ESt) : List Bytes := (sortedBufs s).flatten.map (·.2) ++ (if s.lens = [] then [] else [s.lens])

theorem bufInsert_perm (x : NodeId × Bytes) (l : List (NodeId × Bytes)) : (bufInsert x l).Perm (x :: l) := by
  induction l with
  | nil => exact List.Perm.refl _
  | cons y l ih =>
    simp only [bufInsert]
    split
    · exact List.Perm.refl _
    · exact (List.Perm.cons y ih).trans (List.Perm.swap x y l)

theorem bufSort_perm (l : List (NodeId × Bytes)) : (bufSort l).Perm l := by
  induction l with
  | nil => exact List.Perm.refl _
  | cons x l ih => exact (bufInsert_perm x _).trans (List.Perm.cons x ih)

/-- What `WriteBuffers` writes: buffers are divided into buckets. -/
theorem writeBuffers_spec (C : Codec) (t : UInt8) (bucketSize : Nat) {s : ESt} (hg : Good s)
    (hcount : (bufValues s).length < 2 ^ 32) :
    ∃ G : List (List Bytes), G.flatten = bufValues s ∧ (∀ y ∈ G, y ≠ []) ∧ (∀ x ∈ bufValues s, x ≠ []) ∧
      G.length ≤ (bufValues s).length ∧
      writeBuffers C t bucketSize s = some (writeVarint G.length ++ writeVarint (bufValues s).length ++
        (G.map (fun g => (bucket C t g).length)).flatMap writeVarint ++
        ((bufValues s).map (·.length)).flatMap writeVarint, G.flatMap (bucket C t)) := by
  have hpos : ∀ x ∈ ((sortedBufs s).map (fun l => l.map (·.2))).flatten, x ≠ [] := by
    intro x hx
    obtain ⟨l, hl, hx⟩ := List.mem_flatten.1 hx
    obtain ⟨l', hl', rfl⟩ := List.mem_map.1 hl
    obtain ⟨ty, _, rfl⟩ := List.mem_map.1 hl'
    obtain ⟨y, hy, rfl⟩ := List.mem_map.1 hx
    exact hg.nonempty ty y ((bufSort_perm _).mem_iff.1 hy)
  have h0 : WOk C t ⟨[], [], [], [], none⟩ [] [] (([] : List Bytes).flatten.length) := by
    constructor <;> simp
  obtain ⟨w, G, g, h1, h2, h3⟩ := addTypes_spec bucketSize _ hpos h0
  have hmf : ((sortedBufs s).map (fun l => l.map (·.2))).flatten = (sortedBufs s).flatten.map (·.2) := by
    rw [List.map_flatten]
  rw [hmf] at h3 hpos
  simp only [List.flatten_nil, List.nil_append] at h3
  unfold writeBuffers
  rw [h1]
  simp only
  have hfin : ∀ (w : WSt) (G : List (List Bytes)) (g : List Bytes), WOk C t w G g g.flatten.length →
      G.flatten ++ g = bufValues s →
      ∃ G : List (List Bytes), G.flatten = bufValues s ∧ (∀ y ∈ G, y ≠ []) ∧ (∀ x ∈ bufValues s, x ≠ []) ∧
        G.length ≤ (bufValues s).length ∧
        (match w.flush C t with
        | none => none
        | some w =>
          if w.bucketLens.length < 2 ^ 32 ∧ w.bufSizes.length < 2 ^ 32 then
            some (writeVarint w.bucketLens.length ++ writeVarint w.bufSizes.length ++
              w.bucketLens.flatMap writeVarint ++ w.bufSizes.flatMap writeVarint, w.out)
          else none) = some (writeVarint G.length ++ writeVarint (bufValues s).length ++
        (G.map (fun g => (bucket C t g).length)).flatMap writeVarint ++
        ((bufValues s).map (·.length)).flatMap writeVarint, G.flatMap (bucket C t)) := by
    intro w G g hw he
    have hlen : ∀ G : List (List Bytes), (∀ y ∈ G, y ≠ []) → G.length ≤ G.flatten.length := by
      intro G hG
      induction G with
      | nil => simp
      | cons y G ih =>
        have h1 := List.length_pos_iff.2 (hG y List.mem_cons_self)
        have h2 := ih (fun z hz => hG z (List.mem_cons_of_mem _ hz))
        simp only [List.length_cons, List.flatten_cons, List.length_append]; omega
    obtain ⟨w', G', e1, e2, e3⟩ : ∃ w' G', w.flush C t = some w' ∧ WOk C t w' G' [] 0 ∧ G'.flatten = bufValues s := by
      by_cases hg : g = []
      · subst hg
        exact ⟨w, G, hw.flush_nil, ⟨hw.out, hw.lens, hw.sizes, hw.cur, by simp, hw.ne, hw.pos⟩, by simpa using he⟩
      · obtain ⟨w', e1, e2⟩ := hw.flush hg
        exact ⟨w', G ++ [g], e1, e2 0, by simpa using he⟩
    have hG' := hlen G' e2.ne
    rw [e3] at hG'
    refine ⟨G', e3, e2.ne, ?_, hG', ?_⟩
    · intro x hx
      apply e2.pos x
      rw [List.append_nil, e3]; exact hx
    · rw [e1]
      simp only
      have l1 : w'.bucketLens.length = G'.length := by rw [e2.lens]; simp
      have l2 : w'.bufSizes = (bufValues s).map (·.length) := by rw [e2.sizes, List.append_nil, e3]
      rw [if_pos ⟨by rw [l1]; omega, by rw [l2]; simpa using hcount⟩, l1, l2, e2.lens, e2.out]
      simp
  by_cases hl : s.lens = []
  · simp only [hl, if_true]
    exact hfin w G g h2 (by rw [h3, bufValues, if_pos hl, List.append_nil])
  · simp only [hl, if_false]
    obtain ⟨w', G', e1, e2, e3⟩ := h2.start hl s.lens.length
    rw [e1]
    simp only
    refine hfin w' G' [s.lens] (by simpa using e2) ?_
    rw [bufValues, if_neg hl, ← h3, e3]
    split
    · rename_i h; subst h; simp
    · simp

/-! ## Reading -/

theorem readBuckets_write {C : Codec} {t : UInt8} : ∀ (G : List (List Bytes)) (h src : Bytes),
    (∀ g ∈ G, (bucket C t g).length < 2 ^ 64) →
    readBuckets G.length ((G.map (fun g => (bucket C t g).length)).flatMap writeVarint ++ h)
      (G.flatMap (bucket C t) ++ src) = some (G.map (bucket C t), h, src)
  | [], h, src, _ => rfl
  | g :: G, h, src, hs => by
    simp only [List.length_cons, List.map_cons, List.flatMap_cons, List.append_assoc, readBuckets]
    rw [readVarint_write (by omega) (hs g List.mem_cons_self)]
    simp only
    rw [if_neg (by simp only [List.length_append]; omega), List.take_left' rfl, List.drop_left' rfl,
      readBuckets_write G h src (fun x hx => hs x (List.mem_cons_of_mem _ hx))]

theorem openBuckets_write {C : Codec} (hC : C.Lawful) {t : UInt8} (ht : knownCompression t = true) :
    ∀ (G : List (List Bytes)), (∀ g ∈ G, g.flatten.length < 2 ^ 64) →
    openBuckets C t (G.map (bucket C t)) = some (G.map (fun g => (g.flatten, true)))
  | [], _ => rfl
  | g :: G, hs => by
    have h1 : decompressor C t (bucket C t g) = some (g.flatten, true) :=
      decompressor_encode hC ht (hs g List.mem_cons_self)
    simp only [List.map_cons, openBuckets, h1]
    rw [openBuckets_write hC ht G (fun x hx => hs x (List.mem_cons_of_mem _ hx))]
    rfl

theorem readBuffers_write : ∀ (n : Nat) (g : List Bytes) (G : List (List Bytes)) (h : Bytes),
    n = g.length + G.flatten.length → g ≠ [] →
    (∀ y ∈ G, y ≠ []) → (∀ x ∈ g ++ G.flatten, x ≠ [] ∧ x.length < 2 ^ 64) →
    readBuffers n (((g ++ G.flatten).map (·.length)).flatMap writeVarint ++ h) (g.flatten, true)
      (G.map (fun g => (g.flatten, true))) = some (g ++ G.flatten, h, ([], true), [])
  | 0, g, G, h, hn, hg, _, _ => by
    have := List.length_pos_iff.2 hg; omega
  | n + 1, g, G, h, hn, hg, hG, hx => by
    obtain ⟨b, g', rfl⟩ := List.exists_cons_of_ne_nil hg
    obtain ⟨hb, hb64⟩ := hx b (by simp)
    simp only [List.cons_append, List.map_cons, List.flatMap_cons, List.append_assoc, readBuffers]
    rw [readVarint_write (by omega) hb64]
    simp only [List.flatten_cons]
    rw [if_neg (by simp only [List.length_append]; omega), List.take_left' rfl, List.drop_left' rfl]
    by_cases hg' : g' = []
    · subst hg'
      cases G with
      | nil =>
        simp only [List.length_cons, List.length_nil, List.flatten_nil] at hn
        have : n = 0 := by omega
        subst this
        simp [nextBucket, readBuffers]
      | cons g2 G2 =>
        have hg2 := hG g2 List.mem_cons_self
        have hne : g2.flatten ≠ [] := flatten_ne_nil hg2 (fun x hxx => (hx x (by simp [hxx])).1)
        have hnb : nextBucket (([] : Bytes), true) ((g2 :: G2).map (fun g => (g.flatten, true))) =
            some ((g2.flatten, true), G2.map (fun g => (g.flatten, true))) := by
          simp only [List.map_cons, nextBucket, ne_eq, not_true_eq_false, if_false, Bool.true_eq_false]
          cases G2 with
          | nil => rfl
          | cons g3 G3 => simp only [List.map_cons, nextBucket, ne_eq, hne, not_false_eq_true, if_true]
        simp only [List.flatten_nil, hnb]
        have := readBuffers_write n g2 G2 h (by
          simp only [List.length_cons, List.length_nil, List.flatten_cons, List.length_append] at hn; omega) hg2
          (fun y hy => hG y (List.mem_cons_of_mem _ hy)) (fun x hxx => hx x (by
            simp only [List.flatten_cons]; exact List.mem_append_right _ hxx))
        simp only [List.flatten_cons, List.nil_append]
        rw [this]
    · have hne : g'.flatten ≠ [] := flatten_ne_nil hg' (fun x hxx => (hx x (by simp [hxx])).1)
      have hnb : nextBucket (g'.flatten, true) (G.map (fun g => (g.flatten, true))) =
          some ((g'.flatten, true), G.map (fun g => (g.flatten, true))) := by
        cases G with
        | nil => rfl
        | cons g3 G3 => simp only [List.map_cons, nextBucket, ne_eq, hne, not_false_eq_true, if_true]
      simp only [hnb]
      rw [readBuffers_write n g' G h (by simp only [List.length_cons] at hn; omega) hg' hG
        (fun x hxx => hx x (by simp only [List.cons_append]; exact List.mem_cons_of_mem _ hxx))]

theorem le_sum_of_mem : ∀ {l : List Nat} {x : Nat}, x ∈ l → x ≤ l.sum
  | y :: l, x, h => by
    rw [List.sum_cons]
    rcases List.mem_cons.1 h with rfl | h
    · omega
    · have := le_sum_of_mem h; omega

theorem length_le_flatten {g : List Bytes} {x : Bytes} (h : x ∈ g) : x.length ≤ g.flatten.length := by
  rw [List.length_flatten]
  exact le_sum_of_mem (List.mem_map.2 ⟨x, h, rfl⟩)

theorem flatMap_writeVarint_length {l : List Nat} (h : ∀ x ∈ l, x < 2 ^ 64) : (l.flatMap writeVarint).length ≤ 10 * l.length := by
  induction l with
  | nil => simp
  | cons x l ih =>
    have h1 : (writeVarint x).length ≤ 10 := (writeVarint_length_le 10 _ (by omega)).2
      (by rw [show (128 : Nat) ^ 10 = 2 ^ 70 by decide]; have := h x List.mem_cons_self; omega)
    have h2 := ih (fun y hy => h y (List.mem_cons_of_mem _ hy))
    simp only [List.flatMap_cons, List.length_append, List.length_cons]
    omega

/-- Buffers are read back. -/
theorem encodeCompressed_length_le {C : Codec} (hB : C.Bounded) (t : UInt8) {d : Bytes} (hd : d.length < 2 ^ 64) :
    (encodeCompressed C t d).length ≤ 2 * d.length + 1010 := by
  unfold encodeCompressed
  split
  · rw [List.length_append]
    have h1 : (writeVarint d.length).length ≤ 10 := by
      have := flatMap_writeVarint_length (l := [d.length]) (by simp; omega)
      simpa using this
    have := hB t d
    omega
  · omega

theorem parseBuffers_write {C : Codec} (hC : C.Lawful) {t : UInt8} (ht : knownCompression t = true)
    (bucketSize : Nat) {s : ESt} (hg : Good s) (hcount : (bufValues s).length < 2 ^ 32)
    (hbytes : (bufValues s).flatten.length < 2 ^ 64) :
    ∃ h1 d1, writeBuffers C t bucketSize s = some (h1, d1) ∧
      (C.Bounded → d1.length ≤ 2 * (bufValues s).flatten.length + 1010 * (bufValues s).length) ∧
      (d1.length < 2 ^ 64 → h1.length ≤ 20 * (bufValues s).length + 20 ∧
        ∀ h src, parseBuffers C t (h1 ++ h) (d1 ++ src) = some (bufValues s, h, src)) := by
  obtain ⟨G, e1, e2, e3, e4, e5⟩ := writeBuffers_spec C t bucketSize hg hcount
  refine ⟨_, _, e5, ?_, ?_⟩
  · intro hB
    have hb : ∀ G : List (List Bytes), G.flatten.flatten.length < 2 ^ 64 →
        (G.flatMap (bucket C t)).length ≤ 2 * G.flatten.flatten.length + 1010 * G.length := by
      intro G
      induction G with
      | nil => intro _; simp
      | cons g G ih =>
        intro hlt
        simp only [List.flatten_cons, List.flatten_append, List.length_append] at hlt
        have := ih (by omega)
        have he := encodeCompressed_length_le hB t (d := g.flatten) (by omega)
        simp only [List.flatMap_cons, List.length_append, List.flatten_cons, List.flatten_append, List.length_cons]
        unfold bucket at this ⊢
        omega
    have := hb G (by rw [e1]; omega)
    rw [e1] at this
    omega
  intro hd
  have hbk : ∀ g ∈ G, (bucket C t g).length < 2 ^ 64 := by
    intro g hgm
    have : (bucket C t g).length ≤ (G.flatMap (bucket C t)).length := by
      rw [List.length_flatMap]
      exact le_sum_of_mem (List.mem_map.2 ⟨g, hgm, rfl⟩)
    omega
  have hval : ∀ x ∈ bufValues s, x.length < 2 ^ 64 := by
    intro x hx
    have := length_le_flatten hx
    omega
  have hfl : ∀ g ∈ G, g.flatten.length < 2 ^ 64 := by
    intro g hgm
    have h1 : G.flatten.flatten.length = (bufValues s).flatten.length := by rw [e1]
    have h2 : g.flatten.length ≤ (G.map List.flatten).flatten.length :=
      length_le_flatten (List.mem_map.2 ⟨g, hgm, rfl⟩)
    rw [← List.flatten_flatten] at h2
    omega
  constructor
  · have w1 : (writeVarint G.length).length ≤ 10 := by
      have := flatMap_writeVarint_length (l := [G.length]) (by simp; omega)
      simpa using this
    have w2 : (writeVarint (bufValues s).length).length ≤ 10 := by
      have := flatMap_writeVarint_length (l := [(bufValues s).length]) (by simp; omega)
      simpa using this
    have w3 := flatMap_writeVarint_length (l := G.map (fun g => (bucket C t g).length)) (by
      intro x hx
      obtain ⟨g, hgm, rfl⟩ := List.mem_map.1 hx
      exact hbk g hgm)
    have w4 := flatMap_writeVarint_length (l := (bufValues s).map (·.length)) (by
      intro x hx
      obtain ⟨g, hgm, rfl⟩ := List.mem_map.1 hx
      exact hval g hgm)
    rw [List.length_map] at w3 w4
    simp only [List.length_append]
    omega
  intro h src
  unfold parseBuffers
  simp only [List.append_assoc]
  rw [readVarint_write (by omega) (by omega)]
  simp only
  rw [readVarint_write (by omega) (by omega)]
  simp only
  cases G with
  | nil =>
    simp only [List.flatten_nil] at e1
    simp [← e1]
  | cons g G =>
    rw [if_neg (by simp)]
    rw [readBuckets_write (g :: G) _ _ hbk]
    simp only
    rw [openBuckets_write hC ht (g :: G) hfl]
    simp only [List.map_cons]
    rw [List.flatten_cons] at e1
    have := readBuffers_write (bufValues s).length g G h (by rw [← e1, List.length_append]) (e2 g List.mem_cons_self)
      (fun y hy => e2 y (List.mem_cons_of_mem _ hy)) (by
        rw [e1]
        exact fun x hx => ⟨e3 x hx, hval x hx⟩)
    rw [e1] at this
    rw [this]
    simp

end Riegeli.Tr

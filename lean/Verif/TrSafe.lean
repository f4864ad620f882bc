import Verif.TrRound
/-!
# Transposed chunks: decoding arbitrary data
-/
namespace Riegeli.Tr

/-! ## Parsing -/

theorem readVarints_length {w : Nat} : ∀ {n : Nat} {src rest : Bytes} {vs : List Nat},
    readVarints w n src = some (vs, rest) → vs.length = n
  | 0, src, rest, vs, h => by cases h; rfl
  | n + 1, src, rest, vs, h => by
    unfold readVarints at h
    split at h
    · cases h
    · split at h
      · cases h
      · rename_i h2
        cases h
        simp only [List.length_cons, readVarints_length h2]

theorem parseNodes_spec {proj : Bool} {nb size : Nat} : ∀ {l : List (Nat × Nat)} {subs h h' : Bytes} {nodes : List Node},
    parseNodes proj nb size l subs h = some (nodes, h') → nodes.length = l.length ∧ ∀ n ∈ nodes, n.next < size
  | [], subs, h, h', nodes, hp => by cases hp; simp
  | (tag, next) :: l, subs, h, h', nodes, hp => by
    unfold parseNodes at hp
    split at hp
    · cases hp
    · rename_i hn
      simp only at hp
      generalize (if decide (size ≤ next) = true then next - size else next) = nx at hp
      split at hp
      · cases hp
      · rename_i hlt
        split at hp
        · cases hp
        · rename_i hrec
          cases hp
          obtain ⟨h1, h2⟩ := parseNodes_spec hrec
          refine ⟨by simp [h1], ?_⟩
          intro n hn
          rcases List.mem_cons.1 hn with rfl | hn
          · simp only; omega
          · exact h2 n hn

/-- What is known about the nodes after parsing. -/
structure NodesOk (nodes : List Node) (first : Nat) : Prop where
  next : ∀ n ∈ nodes, n.next < nodes.length
  first : first < nodes.length
  ends : ∀ x, Ends (nodeAt nodes) x

theorem parseStates_ok {proj : Bool} {bufs : List (Option Bytes)} {h : Bytes} {clean : Bool} {nodes : List Node}
    {lensBuf : Option Nat} {first : Nat} (hp : parseStates proj bufs h clean = some (nodes, lensBuf, first)) :
    NodesOk nodes first := by
  unfold parseStates at hp
  split at hp
  · cases hp
  rename_i size h1 _
  split at hp
  · cases hp
  rename_i tags h2 htags
  split at hp
  · cases hp
  rename_i nexts h3 hnexts
  simp only at hp
  split at hp
  · cases hp
  split at hp
  · cases hp
  rename_i nodes' h4 hnodes
  split at hp
  · cases hp
  split at hp
  · cases hp
  split at hp
  · cases hp
  split at hp
  · cases hp
  rename_i first' h5 _
  split at hp
  · cases hp
  split at hp
  · cases hp
  rename_i hfirst hloop
  split at hp
  · cases hp
  cases hp
  obtain ⟨e1, e2⟩ := parseNodes_spec hnodes
  rw [List.length_zip, readVarints_length htags, readVarints_length hnexts, Nat.min_self] at e1
  refine ⟨by rw [e1]; exact e2, by omega, ?_⟩
  intro x
  by_cases hx : x < size
  · exact containsImplicitLoop_ends (by simpa using hloop) x (by omega)
  · apply Ends.stop
    unfold nodeAt
    rw [List.getD_eq_getElem?_getD, List.getElem?_eq_none (by omega)]
    rfl

theorem parse_ok {C : Codec} {fields : List (List Nat)} {src : Bytes} {c : Ctx} (h : parse C fields src = some c) :
    NodesOk c.nodes c.first := by
  unfold parse at h
  repeat' split at h
  all_goals first
    | (cases h; done)
    | skip
  rename_i hs _ _ _
  cases h
  exact parseStates_ok hs

/-- Decoding returns. -/
theorem decode_total (C : Codec) (fields : List (List Nat)) (src : Bytes) (n size : Nat) :
    ∃ r, decode C fields src n size = some r := by
  unfold decode
  split
  · exact ⟨_, rfl⟩
  · rename_i c hc
    have hok := parse_ok hc
    obtain ⟨r, hr⟩ := decodeLoop_total (env := ⟨n, size, c.lensBuf, c.proj.getD []⟩) hok.ends _ (DSt.init c) rfl
      (fun _ => ⟨rfl, rfl⟩)
      (by
        intro hi
        show 1 ≤ if (nodeAt c.nodes c.first).implicit then 1 else 0
        rw [show (DSt.init c).node = c.first from rfl] at hi
        rw [if_pos hi]; omega)
    simp only [hr]
    cases r with
    | none => exact ⟨_, rfl⟩
    | some s =>
      simp only
      split
      · exact ⟨_, rfl⟩
      · split <;> exact ⟨_, rfl⟩

/-! ## What is written -/

/-- How output changes: data are added in front, the limits are as before, or one is added for what has been written. -/
structure Grows (env : Env) (d d' : DSt) : Prop where
  dest : ∃ x, d'.dest = x ++ d.dest
  size : d'.dest.length ≤ max env.maxSize d.dest.length
  limits : d'.limits = d.limits ∨ (d'.limits = d'.dest.length :: d.limits ∧ d.limits.length ≠ env.numRecords)

theorem Grows.of_eq {env : Env} {d d' : DSt} (h1 : d'.dest = d.dest) (h2 : d'.limits = d.limits) : Grows env d d' :=
  ⟨⟨[], by simp [h1]⟩, by rw [h1]; omega, Or.inl h2⟩

theorem DSt.write_grows {env : Env} {d d' : DSt} {x : Bytes} (h : d.write env x = some d') :
    (∃ x, d'.dest = x ++ d.dest) ∧ d'.dest.length ≤ max env.maxSize d.dest.length ∧ d'.limits = d.limits := by
  unfold DSt.write at h
  split at h
  · cases h
    refine ⟨⟨x, rfl⟩, ?_, rfl⟩
    simp only [List.length_append]; omega
  · cases h

theorem DSt.read_same {d d' : DSt} {i : Option Nat} {n : Nat} {x : Bytes} (h : d.read i n = some (x, d')) :
    d'.dest = d.dest ∧ d'.limits = d.limits := by
  unfold DSt.read at h
  repeat' split at h
  all_goals first
    | (cases h; done)
    | (cases h; exact ⟨rfl, rfl⟩)

theorem messageStart_grows {env : Env} {d d' : DSt} (h : messageStart env d = some d') :
    d'.dest = d.dest ∧ d'.limits = d.dest.length :: d.limits ∧ d.limits.length ≠ env.numRecords := by
  unfold messageStart at h
  split at h
  · cases h
  · split at h
    · cases h
    · rename_i hn
      cases h; exact ⟨rfl, rfl, hn⟩

theorem Grows.of_write {env : Env} {d0 d d' : DSt} {x : Bytes} (h0 : d.dest = d0.dest) (h1 : d.limits = d0.limits)
    (h : d.write env x = some d') : Grows env d0 d' := by
  obtain ⟨a, b, c⟩ := DSt.write_grows h
  rw [h0] at a b
  rw [h1] at c
  exact ⟨a, b, Or.inl c⟩

theorem callback_grows {env : Env} {d d' : DSt} (h : callback env d = some d') : Grows env d d' := by
  unfold callback at h
  simp only at h
  split at h
  · cases h
  · cases h; exact Grows.of_eq rfl rfl
  · split at h
    · cases h
    · cases h; exact Grows.of_eq rfl rfl
  · cases h; exact Grows.of_eq rfl rfl
  · split at h
    · cases h
    · split at h
      · cases h
      · exact Grows.of_write (by rfl) (by rfl) h
  · exact Grows.of_write (by rfl) (by rfl) h
  · split at h
    · cases h
    · rename_i hr
      have h1 := DSt.read_same hr
      exact Grows.of_write h1.1 h1.2 h
  · split at h
    · cases h
    · rename_i hr
      have h1 := DSt.read_same hr
      exact Grows.of_write h1.1 h1.2 h
  · exact Grows.of_write (by rfl) (by rfl) h
  · split at h
    · cases h
    · split at h
      · cases h
      · split at h
        · cases h
        · rename_i hr
          have h1 := DSt.read_same hr
          split at h
          · cases h
          · rename_i hw
            obtain ⟨⟨x, a1⟩, a2, a3⟩ := DSt.write_grows hw
            obtain ⟨⟨y, b1⟩, b2, b3⟩ := DSt.write_grows h
            refine ⟨⟨y ++ x, by rw [b1, a1, h1.1, List.append_assoc]⟩, ?_, Or.inl (by rw [b3, a3, h1.2])⟩
            rw [h1.1] at a2; omega
  · split at h
    · cases h
    · exact Grows.of_write (by rfl) (by rfl) h
  · exact Grows.of_write (by rfl) (by rfl) h
  · split at h
    · cases h
    · split at h
      · cases h
      · rename_i hr
        have h1 := DSt.read_same hr
        split at h
        · cases h
        · rename_i hr2
          have h2 := DSt.read_same hr2
          split at h
          · cases h
          · rename_i hw
            obtain ⟨⟨x, a1⟩, a2, a3⟩ := DSt.write_grows hw
            obtain ⟨b1, b2, b3⟩ := messageStart_grows h
            refine ⟨⟨x, by rw [b1, a1, h2.1, h1.1]⟩, by rw [b1]; rw [h2.1, h1.1] at a2; exact a2, Or.inr ⟨?_, ?_⟩⟩
            · rw [b1, b2, a3, h2.2, h1.2]
            · rw [a3, h2.2, h1.2] at b3; exact b3
  · obtain ⟨b1, b2, b3⟩ := messageStart_grows h
    exact ⟨⟨[], by simp [b1]⟩, by rw [b1]; omega, Or.inr ⟨by rw [b1, b2], b3⟩⟩
  · cases h; exact Grows.of_eq rfl rfl
  · cases h
  · cases h

theorem setCallbackType_same {env : Env} {d d' : DSt} (h : setCallbackType env d = some d') :
    d'.dest = d.dest ∧ d'.limits = d.limits := by
  unfold setCallbackType at h
  simp only at h
  repeat' split at h
  all_goals first
    | (cases h; done)
    | (cases h; exact ⟨rfl, rfl⟩)

theorem handleNode_grows {env : Env} {d d' : DSt} (h : handleNode env d = some d') : Grows env d d' := by
  unfold handleNode at h
  split at h
  · split at h
    · cases h
    · rename_i h1
      obtain ⟨e1, e2⟩ := setCallbackType_same h1
      obtain ⟨a, b, c⟩ := callback_grows h
      rw [e1] at a b
      rw [e2] at c
      exact ⟨a, b, c⟩
  · exact callback_grows h

theorem transitionNode_same {d d' : DSt} (h : transitionNode d = some d') :
    d'.dest = d.dest ∧ d'.limits = d.limits ∧ d'.nodes = d.nodes ∧ d'.node ≤ (d.nodes d.node).next + 63 := by
  unfold transitionNode at h
  simp only at h
  split at h
  · split at h
    · cases h
    · rename_i b _ _
      cases h
      refine ⟨rfl, rfl, rfl, ?_⟩
      have := b.toNat_lt
      simp only; omega
  · cases h; exact ⟨rfl, rfl, rfl, by simp⟩

/-- The state while decoding. -/
structure SizesOk (env : Env) (d : DSt) : Prop where
  size : d.dest.length ≤ env.maxSize
  count : d.limits.length ≤ env.numRecords
  sorted : d.limits.Pairwise (· ≥ ·)
  le : ∀ x ∈ d.limits, x ≤ d.dest.length

theorem SizesOk.grows {env : Env} {d d' : DSt} (h : SizesOk env d) (hg : Grows env d d') : SizesOk env d' := by
  obtain ⟨x, hx⟩ := hg.dest
  have hle : d.dest.length ≤ d'.dest.length := by rw [hx, List.length_append]; omega
  have hs := hg.size
  rcases hg.limits with hl | ⟨hl, hn⟩
  · refine ⟨by have := h.size; omega, by rw [hl]; exact h.count, by rw [hl]; exact h.sorted, ?_⟩
    intro y hy; rw [hl] at hy; have := h.le y hy; omega
  · refine ⟨by have := h.size; omega, ?_, ?_, ?_⟩
    · rw [hl, List.length_cons]; have := h.count; omega
    · rw [hl, List.pairwise_cons]
      refine ⟨?_, h.sorted⟩
      intro y hy; have := h.le y hy; simp only [ge_iff_le]; omega
    · intro y hy
      rw [hl] at hy
      rcases List.mem_cons.1 hy with rfl | hy
      · omega
      · have := h.le y hy; omega

theorem decodeLoop_sizes {env : Env} {d d' : DSt} (h : decodeLoop env d = some (some d')) : SizesOk env d → SizesOk env d' := by
  have := decodeLoop.partial_correctness env (fun d r => ∀ d', r = some d' → SizesOk env d → SizesOk env d') ?_ d (some d') h
  · exact this d' rfl
  · intro f ih d r hr d' hd'
    subst hd'
    split at hr
    · cases hr
    · rename_i s hs
      have hg := handleNode_grows hs
      split at hr
      · cases hr; exact fun h => h.grows hg
      · rename_i s2 hs2
        intro hsz
        obtain ⟨t1, t2, _⟩ := transitionNode_same hs2
        have h1 := hsz.grows hg
        exact ih _ _ hr d' rfl ⟨by rw [t1]; exact h1.size, by rw [t2]; exact h1.count, by rw [t2]; exact h1.sorted,
          by rw [t1, t2]; exact h1.le⟩

/-- Results of decoding are consistent. -/
theorem decode_sizes {C : Codec} {fields : List (List Nat)} {src : Bytes} {n size : Nat} {limits : List Nat} {values : Bytes}
    (h : decode C fields src n size = some (some (limits, values))) :
    limits.length = n ∧ limits.Pairwise (· ≤ ·) ∧ limits.getLastD 0 = values.length ∧ values.length ≤ size ∧
    (parseProjection [] fields = some none → values.length = size) := by
  unfold decode at h
  split at h
  · cases h
  rename_i c hc
  simp only at h
  split at h
  · cases h
  · cases h
  rename_i s hs
  split at h
  · cases h
  rename_i lims hfin
  split at h
  · cases h
  rename_i hproj
  simp only [Option.some.injEq, Prod.mk.injEq] at h
  obtain ⟨rfl, rfl⟩ := h
  have hok := decodeLoop_sizes hs ⟨by simp [DSt.init], by simp [DSt.init], by simp [DSt.init], by simp [DSt.init]⟩
  unfold finish at hfin
  split at hfin
  · cases hfin
  split at hfin
  · cases hfin
  split at hfin
  · cases hfin
  split at hfin
  · cases hfin
  rename_i hcount
  simp only at hfin hcount
  split at hfin
  · cases hfin
  rename_i hsize
  simp only [Option.some.injEq] at hfin
  have hcount : s.limits.length = n := by simpa using hcount
  have hsize : s.limits.headD 0 = s.dest.length := by simpa using hsize
  obtain ⟨e1, e2⟩ := reverseLimits_spec (s.limits.headD 0) s.limits.reverse 0 (s.limits.length - 1)
    (by rw [List.length_reverse]; omega)
  rw [hfin, List.length_reverse] at e1
  rw [hfin] at e2
  have hget : ∀ i, i < lims.length → lims.getD i 0 = if i < s.limits.length - 1 then s.dest.length - s.limits.getD (i + 1) 0
      else s.limits.getD 0 0 := by
    intro i hi
    rw [e2 i, hsize]
    by_cases hc : i < s.limits.length - 1
    · rw [if_pos ⟨by omega, hc⟩, if_pos hc, getD_reverse (by omega)]
      congr 2; omega
    · rw [if_neg (by omega), if_neg hc, getD_reverse (by omega)]
      congr 1; omega
  have hle : ∀ i, s.limits.getD i 0 ≤ s.dest.length := by
    intro i
    by_cases hi : i < s.limits.length
    · rw [List.getD_eq_getElem?_getD, List.getElem?_eq_getElem hi]
      exact hok.le _ (List.getElem_mem hi)
    · rw [List.getD_eq_getElem?_getD, List.getElem?_eq_none (by omega)]
      exact Nat.zero_le _
  have h0 : s.limits.getD 0 0 = s.dest.length := by
    rw [← hsize]; cases s.limits <;> rfl
  have hmono : ∀ i j, i < j → j < s.limits.length → s.limits.getD j 0 ≤ s.limits.getD i 0 := by
    intro i j hij hj
    have := List.pairwise_iff_getElem.1 hok.sorted i j (by omega) hj hij
    simp only [List.getD_eq_getElem?_getD, List.getElem?_eq_getElem hj, List.getElem?_eq_getElem (show i < s.limits.length by omega)]
    exact this
  refine ⟨by omega, ?_, ?_, hok.size, ?_⟩
  · rw [List.pairwise_iff_getElem]
    intro i j hi hj hij
    have a1 := hget i hi
    have a2 := hget j hj
    rw [List.getD_eq_getElem?_getD, List.getElem?_eq_getElem hi] at a1
    rw [List.getD_eq_getElem?_getD, List.getElem?_eq_getElem hj] at a2
    simp only [Option.getD_some] at a1 a2
    rw [a1, a2, if_pos (by omega)]
    split
    · have := hmono (i + 1) (j + 1) (by omega) (by omega); omega
    · rw [h0]; omega
  · rw [List.getLastD_eq_getLast?, List.getLast?_eq_getElem?]
    by_cases hn : lims.length = 0
    · have : s.limits = [] := List.length_eq_zero_iff.1 (by omega)
      have h2 : lims = [] := List.length_eq_zero_iff.1 hn
      rw [this] at h0
      rw [h2]
      simpa using h0
    · have a1 := hget (lims.length - 1) (by omega)
      rw [if_neg (by omega), h0] at a1
      rw [List.getD_eq_getElem?_getD] at a1
      exact a1
  · intro hp
    have : c.proj = none := by
      unfold parse at hc
      rw [hp] at hc
      simp only at hc
      repeat' split at hc
      all_goals first
        | (cases hc; done)
        | (cases hc; rfl)
    simp only [this, true_and] at hproj
    simpa using hproj

/-! ## Nodes visited -/

/-- One iteration of the loop of the decoder which does not end it. -/
def Next (env : Env) (d d' : DSt) : Prop := ∃ d1, handleNode env d = some d1 ∧ transitionNode d1 = some d'

/-- States of the decoder at the beginning of the iterations of its loop. -/
inductive Visits (env : Env) (d0 : DSt) : DSt → Prop
  | start : Visits env d0 d0
  | next {d d' : DSt} : Visits env d0 d → Next env d d' → Visits env d0 d'

theorem visits_bounded {env : Env} {c : Ctx} (hok : NodesOk c.nodes c.first) {d : DSt} (h : Visits env (DSt.init c) d) :
    SameShape d.nodes (nodeAt c.nodes) ∧ (∀ i, c.nodes.length ≤ i → d.nodes i = Node.failing) ∧ d.node < c.nodes.length + 63 := by
  induction h with
  | start =>
    refine ⟨fun _ => ⟨rfl, rfl⟩, ?_, ?_⟩
    · intro i hi
      show nodeAt c.nodes i = _
      unfold nodeAt
      rw [List.getD_eq_getElem?_getD, List.getElem?_eq_none hi]; rfl
    · have := hok.first; show c.first < _; omega
  | next hv hn ih =>
    rename_i d d'
    obtain ⟨i1, i2, i3⟩ := ih
    obtain ⟨d1, h1, h2⟩ := hn
    obtain ⟨f1, f2, _⟩ := handleNode_frame h1
    obtain ⟨_, _, t3, t4⟩ := transitionNode_same h2
    have hlt : d.node < c.nodes.length := by
      apply Nat.lt_of_not_le
      intro hge
      have := i2 d.node hge
      unfold handleNode at h1
      rw [this] at h1
      rw [if_neg (by decide)] at h1
      unfold callback at h1
      rw [this] at h1
      cases h1
    refine ⟨?_, ?_, ?_⟩
    · rw [t3]
      intro i
      have a := f1 i
      have b := i1 i
      exact ⟨a.1.trans b.1, a.2.trans b.2⟩
    · intro i hi
      rw [t3]
      have hne : i ≠ d.node := by omega
      rw [← i2 i hi]
      have hst : ∀ e, setCallbackType env d = some e → e.nodes i = d.nodes i := by
        intro e he
        unfold setCallbackType at he
        simp only at he
        repeat' split at he
        all_goals first
          | (cases he; done)
          | (cases he; simp [hne])
      unfold handleNode at h1
      split at h1
      · split at h1
        · cases h1
        · rename_i hs
          rw [(callback_frame h1).1]
          exact hst _ hs
      · rw [(callback_frame h1).1]
    · have hx := (f1 d1.node).2
      have hy := (i1 d1.node).2
      rw [hx, hy, f2] at t4
      have hnx : (nodeAt c.nodes d.node).next < c.nodes.length := by
        have : nodeAt c.nodes d.node = c.nodes[d.node] := by
          unfold nodeAt; rw [List.getD_eq_getElem?_getD, List.getElem?_eq_getElem hlt]; rfl
        rw [this]
        exact hok.next _ (List.getElem_mem hlt)
      omega

end Riegeli.Tr

import Verif.TrDrive
/-!
# Transposed chunks: the decoder returns the records
-/
namespace Riegeli.Tr

/-! ## Record end positions -/

theorem reverseLimits_spec (size : Nat) (l : List Nat) (first last : Nat) : last ≤ l.length →
    (reverseLimits size l first last).length = l.length ∧
    ∀ i, (reverseLimits size l first last).getD i 0 =
      if first ≤ i ∧ i < last then size - l.getD (first + last - 1 - i) 0 else l.getD i 0 := by
  fun_induction reverseLimits size l first last
  case case1 l first last h last' tmp ih =>
    intro hl
    have ih := ih (by simp only [List.length_set]; omega)
    refine ⟨by rw [ih.1]; simp, ?_⟩
    intro i
    rw [ih.2 i]
    have hget : ∀ j, ((l.set first (size - l.getD last' 0)).set last' tmp).getD j 0 =
        if j = last' then tmp else if j = first then size - l.getD last' 0 else l.getD j 0 := by
      intro j
      simp only [List.getD_eq_getElem?_getD, List.getElem?_set, List.length_set]
      by_cases h1 : j = last'
      · subst h1
        rw [if_pos rfl, if_pos (by omega), if_pos rfl]; rfl
      · rw [if_neg (Ne.symm h1), if_neg h1]
        by_cases h2 : j = first
        · subst h2
          rw [if_pos rfl, if_pos (by omega), if_pos rfl]; rfl
        · rw [if_neg (Ne.symm h2), if_neg h2]
    simp only [hget]
    by_cases hi1 : i = last'
    · subst hi1
      rw [if_neg (by omega), if_pos rfl, if_pos (by omega)]
      simp only [tmp]
      congr 2; omega
    · by_cases hi2 : i = first
      · subst hi2
        rw [if_neg (by omega), if_neg hi1, if_pos rfl, if_pos (by omega)]
        congr 2; omega
      · by_cases hi3 : first ≤ i ∧ i < last
        · rw [if_pos (by omega), if_pos hi3, if_neg (by omega), if_neg (by omega)]
          congr 2; omega
        · rw [if_neg (by omega), if_neg hi3, if_neg hi1, if_neg hi2]
  case case2 l first last h =>
    intro hl
    refine ⟨rfl, ?_⟩
    intro i
    rw [if_neg (by omega)]

theorem limitsBack_length (n : Nat) : ∀ (rs : List Bytes), (Added.limitsBack n rs).length = rs.length
  | [] => rfl
  | r :: rs => by simp [Added.limitsBack, limitsBack_length n rs]

theorem limitsBack_getD : ∀ (rs : List Bytes) (i : Nat), i < rs.length →
    (Added.limitsBack 0 rs).getD i 0 = (rs.drop i).flatten.length
  | [], i, h => by simp at h
  | r :: rs, 0, _ => by simp [Added.limitsBack]
  | r :: rs, i + 1, h => by
    simp only [List.length_cons] at h
    simp only [Added.limitsBack, List.getD_cons_succ, List.drop_succ_cons]
    exact limitsBack_getD rs i (by omega)

theorem limitsFrom_length : ∀ (rs : List Bytes) (acc : Nat), (limitsFrom acc rs).length = rs.length
  | [], _ => rfl
  | r :: rs, acc => by simp [limitsFrom, limitsFrom_length rs]

theorem limitsFrom_getD : ∀ (rs : List Bytes) (acc i : Nat), i < rs.length →
    (limitsFrom acc rs).getD i 0 = acc + (rs.take (i + 1)).flatten.length
  | [], _, i, h => by simp at h
  | r :: rs, acc, 0, _ => by simp [limitsFrom]
  | r :: rs, acc, i + 1, h => by
    simp only [List.length_cons] at h
    simp only [limitsFrom, List.getD_cons_succ, List.take_succ_cons, List.flatten_cons, List.length_append]
    rw [limitsFrom_getD rs _ i (by omega)]
    omega

theorem getD_reverse {l : List Nat} {i : Nat} (h : i < l.length) : l.reverse.getD i 0 = l.getD (l.length - 1 - i) 0 := by
  simp only [List.getD_eq_getElem?_getD]
  rw [List.getElem?_reverse h]

theorem reverseLimits_back (rs : List Bytes) :
    reverseLimits rs.flatten.length (Added.limitsBack 0 rs).reverse 0 ((Added.limitsBack 0 rs).length - 1) = limitsFrom 0 rs := by
  have hl := limitsBack_length 0 rs
  obtain ⟨h1, h2⟩ := reverseLimits_spec rs.flatten.length (Added.limitsBack 0 rs).reverse 0 ((Added.limitsBack 0 rs).length - 1)
    (by rw [List.length_reverse]; omega)
  rw [List.length_reverse] at h1
  apply List.ext_getElem (by rw [h1, hl, limitsFrom_length])
  intro i hi1 hi2
  rw [limitsFrom_length] at hi2
  have e1 := h2 i
  have e2 := limitsFrom_getD rs 0 i hi2
  rw [List.getD_eq_getElem?_getD, List.getElem?_eq_getElem (by rw [limitsFrom_length]; exact hi2)] at e2
  rw [List.getD_eq_getElem?_getD, List.getElem?_eq_getElem hi1] at e1
  simp only [Option.getD_some] at e1 e2
  rw [e1, e2]
  have hsplit : rs.flatten.length = (rs.take (i + 1)).flatten.length + (rs.drop (i + 1)).flatten.length := by
    rw [← List.length_append, ← List.flatten_append, List.take_append_drop]
  by_cases hc : i < (Added.limitsBack 0 rs).length - 1
  · rw [if_pos ⟨by omega, hc⟩, getD_reverse (by omega), limitsBack_getD rs _ (by omega)]
    have : (Added.limitsBack 0 rs).length - 1 - (0 + ((Added.limitsBack 0 rs).length - 1) - 1 - i) = i + 1 := by omega
    rw [this]; omega
  · have hi : i = rs.length - 1 := by omega
    rw [if_neg (by omega), getD_reverse (by omega), limitsBack_getD rs _ (by omega)]
    have : (Added.limitsBack 0 rs).length - 1 - i = 0 := by omega
    rw [this, List.drop_zero, List.take_of_length_le (by omega)]
    omega

theorem limitsBack_headD (rs : List Bytes) : (Added.limitsBack 0 rs).headD 0 = rs.flatten.length := by
  cases rs with
  | nil => rfl
  | cons r rs => simp [Added.limitsBack]

/-! ## Buffers -/

theorem lookupB_mem {l : List (NodeId × Bytes)} {id : NodeId} {v : Bytes} (hn : (l.map (·.1)).Nodup) (h : (id, v) ∈ l) :
    lookupB l id = v := by
  induction l with
  | nil => cases h
  | cons x l ih =>
    obtain ⟨k, b⟩ := x
    simp only [List.map_cons, List.nodup_cons] at hn
    simp only [lookupB]
    rcases List.mem_cons.1 h with h | h
    · cases h; simp
    · have : k ≠ id := by
        rintro rfl
        exact hn.1 (List.mem_map.2 ⟨_, h, rfl⟩)
      simp only [this, if_false]
      exact ih hn.2 h

theorem mem_sortedBufs {s : ESt} {x : NodeId × Bytes} : x ∈ (sortedBufs s).flatten ↔ ∃ t, x ∈ s.data t := by
  unfold sortedBufs
  rw [List.mem_flatten]
  constructor
  · rintro ⟨l, hl, hx⟩
    obtain ⟨t, _, rfl⟩ := List.mem_map.1 hl
    exact ⟨t, (bufSort_perm _).mem_iff.1 hx⟩
  · rintro ⟨t, hx⟩
    refine ⟨bufSort (s.data t), List.mem_map.2 ⟨t, ?_, rfl⟩, (bufSort_perm _).mem_iff.2 hx⟩
    cases t <;> simp [bufTypes]

theorem mem_bufferKeys {s : ESt} {id : NodeId} (h : id ∈ (s.data (typeOf id)).map (·.1)) : id ∈ bufferKeys s := by
  obtain ⟨x, hx, rfl⟩ := List.mem_map.1 h
  exact List.mem_map.2 ⟨x, mem_sortedBufs.2 ⟨_, hx⟩, rfl⟩

theorem getElem?_keys {L : List (NodeId × Bytes)} {id : NodeId} (h : id ∈ L.map (·.1)) :
    ∃ x ∈ L, x.1 = id ∧ (L.map (·.2))[(L.map (·.1)).idxOf id]? = some x.2 := by
  have hi := List.idxOf_lt_length_iff.2 h
  have e1 : (L.map (·.1))[(L.map (·.1)).idxOf id] = id := List.getElem_idxOf hi
  rw [List.length_map] at hi
  refine ⟨L[(L.map (·.1)).idxOf id], List.getElem_mem _, ?_, ?_⟩
  · rw [List.getElem_map] at e1; exact e1
  · rw [List.getElem?_map, List.getElem?_eq_getElem hi]; rfl

theorem bufValues_key {s : ESt} (hg : Good s) {id : NodeId} (h : id ∈ bufferKeys s) :
    (bufValues s)[(bufferKeys s).idxOf id]? = some (absData s id) := by
  obtain ⟨x, hx, h1, h2⟩ := getElem?_keys h
  obtain ⟨t, ht⟩ := mem_sortedBufs.1 hx
  have h3 := hg.typed t x ht
  have hi := List.idxOf_lt_length_iff.2 h
  subst h1
  unfold absData
  rw [h3, lookupB_mem (hg.nodup t) (v := x.2) ht]
  unfold bufValues
  rw [List.getElem?_append_left]
  · exact h2
  · unfold bufferKeys at hi ⊢; rw [List.length_map] at hi ⊢; exact hi

theorem bufValues_lens {s : ESt} (hl : s.lens ≠ []) :
    (bufValues s).length = (bufferKeys s).length + 1 ∧ (bufValues s)[(bufferKeys s).length]? = some s.lens := by
  unfold bufValues bufferKeys
  generalize (sortedBufs s).flatten = L
  simp only [if_neg hl, List.length_append, List.length_map, List.length_singleton, true_and]
  rw [List.getElem?_append_right (by simp)]
  simp

theorem bufferKeys_le (s : ESt) : (bufferKeys s).length ≤ (bufValues s).length := by
  unfold bufferKeys bufValues
  rw [List.length_append, List.length_map, List.length_map]
  omega

theorem sortedBufs_length (s : ESt) : (sortedBufs s).flatten.length = bufCount s := by
  have h : ∀ t, (bufSort (s.data t)).length = (s.data t).length := fun t => (bufSort_perm _).length_eq
  simp only [sortedBufs, bufTypes, List.map_cons, List.map_nil, List.flatten_cons, List.flatten_nil, List.length_append,
    List.length_nil, h, bufCount]
  omega

theorem bytesOf_perm {l l' : List (NodeId × Bytes)} (h : l.Perm l') : bytesOf l = bytesOf l' :=
  (h.map _).sum_nat

theorem flatten_map_snd (l : List (NodeId × Bytes)) : (l.map (·.2)).flatten.length = bytesOf l := by
  induction l with
  | nil => rfl
  | cons x l ih =>
    simp only [List.map_cons, List.flatten_cons, List.length_append, ih, bytesOf, List.sum_cons]

theorem bytesOf_append (l l' : List (NodeId × Bytes)) : bytesOf (l ++ l') = bytesOf l + bytesOf l' := by
  simp [bytesOf]

theorem sortedBufs_bytes (s : ESt) : ((sortedBufs s).flatten.map (·.2)).flatten.length = bufBytes s := by
  rw [flatten_map_snd]
  have h : ∀ t, bytesOf (bufSort (s.data t)) = bytesOf (s.data t) := fun t => bytesOf_perm (bufSort_perm _)
  simp only [sortedBufs, bufTypes, List.map_cons, List.map_nil, List.flatten_cons, List.flatten_nil, bytesOf_append, h, bufBytes]
  simp [bytesOf]; omega

theorem bufValues_length_le (s : ESt) : (bufValues s).length ≤ bufCount s + 1 := by
  unfold bufValues
  rw [List.length_append, List.length_map, sortedBufs_length]
  split <;> simp

theorem bufValues_bytes (s : ESt) : (bufValues s).flatten.length = bufBytes s + s.lens.length := by
  unfold bufValues
  rw [List.flatten_append, List.length_append, sortedBufs_bytes]
  split
  · rename_i h; simp [h]
  · simp

/-! ## The header -/

theorem wTag_lt {keys : List NodeId} {op : Option (NodeId × Nat)} (h : SOk keys op) : wTag op < 2 ^ 32 := by
  cases op with
  | none => simp [wTag]
  | some n =>
    obtain ⟨⟨par, tag⟩, sub⟩ := n
    simp only [wTag]
    unfold stateTag
    simp only
    rcases h.1 with ⟨h0, hpar, _⟩ | ⟨h8, h32, hw, _⟩
    · simp only at h0 hpar
      subst h0
      simp only [ne_eq, not_true_eq_false, if_false]
      rcases hpar with hpar | hpar <;> rw [hpar] <;> decide
    · simp only at h8 h32 hw
      rw [if_pos (by omega)]
      split
      · decide
      · split
        · rename_i hh
          have := hh.1
          unfold wireType at this
          omega
        · exact h32

theorem statesHeader_length {s : ESt} {T : Nat → TagInfo} {sm : SM} {first : Nat}
    (hops : ∀ x ∈ smOps s sm, SOk (bufferKeys s) x) (hk : (bufferKeys s).length < 2 ^ 32)
    (hsz : 2 * sm.size ≤ 2 ^ 32) (hfirst : first < sm.size)
    (hbase : ∀ p, p < sm.size → stateBase T sm.size (sm.get p) < 2 * sm.size) :
    (statesHeader s T sm first).length ≤ 31 * sm.size + 20 := by
  have hlen : (smOps s sm).length = sm.size := by simp [smOps, SM.toList]
  have h1 : (writeVarint sm.size).length ≤ 10 := (writeVarint_length_le 10 _ (by omega)).2
      (by rw [show (128 : Nat) ^ 10 = 2 ^ 70 by decide]; omega)
  have h2 : (writeVarint first).length ≤ 10 := (writeVarint_length_le 10 _ (by omega)).2
      (by rw [show (128 : Nat) ^ 10 = 2 ^ 70 by decide]; omega)
  have h3 : (((smOps s sm).map wTag).flatMap writeVarint).length ≤ 10 * sm.size := by
    have := flatMap_writeVarint_length (l := (smOps s sm).map wTag) (by
      intro x hx
      obtain ⟨op, hop, rfl⟩ := List.mem_map.1 hx
      have := wTag_lt (hops op hop)
      omega)
    rw [List.length_map, hlen] at this
    exact this
  have h4 : ((sm.toList.map (stateBase T sm.size)).flatMap writeVarint).length ≤ 10 * sm.size := by
    have := flatMap_writeVarint_length (l := sm.toList.map (stateBase T sm.size)) (by
      intro x hx
      obtain ⟨st, hst, rfl⟩ := List.mem_map.1 hx
      obtain ⟨p, hp, rfl⟩ := List.mem_map.1 hst
      have := hbase p (List.mem_range.1 hp)
      omega)
    rw [List.length_map, show sm.toList.length = sm.size by simp [SM.toList]] at this
    exact this
  have hfl : ∀ (f : Option (NodeId × Nat) → Bytes) (n : Nat) (l : List (Option (NodeId × Nat))), (∀ x ∈ l, (f x).length ≤ n) →
      (l.flatMap f).length ≤ n * l.length := by
    intro f n l
    induction l with
    | nil => intro _; simp
    | cons x l ih =>
      intro h
      have e1 := h x List.mem_cons_self
      have e2 := ih (fun y hy => h y (List.mem_cons_of_mem _ hy))
      simp only [List.flatMap_cons, List.length_append, List.length_cons, Nat.mul_add]
      omega
  have h5 : ((smOps s sm).flatMap wSub).length ≤ 1 * sm.size := by
    rw [← hlen]
    apply hfl
    intro x _
    cases x with
    | none => simp [wSub]
    | some n =>
      simp only [wSub]
      unfold stateSubtype
      repeat' split
      all_goals simp
  have h6 : ((smOps s sm).flatMap (wBuf (bufferKeys s))).length ≤ 10 * sm.size := by
    rw [← hlen]
    apply hfl
    intro x hx
    have hb : ∀ id ∈ bufferKeys s, (writeVarint ((bufferKeys s).idxOf id)).length ≤ 10 := by
      intro id hid
      have := List.idxOf_lt_length_iff.2 hid
      exact (writeVarint_length_le 10 _ (by omega)).2 (by rw [show (128 : Nat) ^ 10 = 2 ^ 70 by decide]; omega)
    cases x with
    | none => simp [wBuf]
    | some n =>
      simp only [wBuf]
      cases hs : stateBuffer n.1 n.2 with
      | none => simp
      | some id => exact hb id ((hops _ hx).2 id hs)
  unfold statesHeader
  simp only [List.length_append]
  omega

/-! ## The whole chunk -/

/-- A chunk written by the encoder is decoded to the same records. -/
theorem decode_encode {C : Codec} (hC : C.Lawful) {t : UInt8} (ht : knownCompression t = true) (bucketSize : Nat)
    (O : HashOrder) (rs : List Bytes) (hsz : rs.flatten.length + rs.length < 2 ^ 29) :
    ∃ s data, ESt.empty.addAll rs = some s ∧ s.numRecords = rs.length ∧ s.decodedDataSize = rs.flatten.length ∧
      s.encode C t bucketSize O = some data ∧
      (C.Bounded → data.length ≤ 10000 * (rs.flatten.length + rs.length + 1)) ∧
      (data.length < 2 ^ 64 → decode C [[]] data rs.length rs.flatten.length = some (some (limitsFrom 0 rs, rs.flatten))) := by
  have hr : ∀ r ∈ rs, r.length < 2 ^ 32 := by
    intro r hr
    have := length_le_flatten hr
    omega
  obtain ⟨s, h1, hg, hadd⟩ := addAll_spec rs good_empty (by show 0 + _ ≤ kMaxNumRecords; unfold kMaxNumRecords; omega)
    (by show 0 + _ < _; omega) hr
  obtain ⟨-, hnum, hdec, new, henc, -, hrun⟩ := hadd
  have hsmall := Small.addAll rs small_empty (by omega) h1
  rw [Nat.zero_add, Nat.zero_add] at hsmall
  have hlen : s.enc.length ≤ 2 ^ 29 - 1 := by have := hsmall.enc; omega
  obtain ⟨T, sm, first, offs, ps, hD⟩ := drive O hg hlen
  have hcount : (bufValues s).length < 2 ^ 32 := by
    have := bufValues_length_le s
    have := hsmall.count
    omega
  have hbytes : (bufValues s).flatten.length < 2 ^ 64 := by
    have := bufValues_bytes s
    have := hsmall.bufs
    have := hsmall.lens
    omega
  obtain ⟨hd1, d1, hw, hbnd, hread⟩ := parseBuffers_write hC ht (if t = kNone then 2 ^ 64 - 1 else bucketSize) hg hcount hbytes
  have hkl := bufferKeys_le s
  have hk : (bufferKeys s).length < 2 ^ 32 := by omega
  have hssz : 2 * sm.size ≤ 2 ^ 32 := by have := hD.size; omega
  have hsok : ∀ (e : Nat) op, s.tags[e]? = some op → SOk (bufferKeys s) (some op) := by
    intro e op h
    have hm := List.mem_of_getElem? h
    exact ⟨hg.wf op hm, fun id hid => mem_bufferKeys (hg.buf op hm id hid)⟩
  have hops : ∀ x ∈ smOps s sm, SOk (bufferKeys s) x := by
    intro x hx
    obtain ⟨st, hst, rfl⟩ := List.mem_map.1 hx
    unfold stateNode
    cases he : st.etag with
    | none => trivial
    | some e =>
      simp only [Option.bind_some]
      cases ho : s.tags[e]? with
      | none => trivial
      | some op => exact hsok e op ho
  have hhdr := statesHeader_length (T := T) hops hk hssz hD.lt hD.base
  have hws : writeStates s T sm = some (statesHeader s T sm first) := writeStates_eq hops hD.position (by omega)
  obtain ⟨T0, hcreate, hT0⟩ := hD.create
  refine ⟨s, [t] ++ encodeLengthPrefixed C t (hd1 ++ statesHeader s T sm first) ++ d1 ++
    encodeCompressed C t (packOffsets none offs), h1, by rw [hnum]; exact Nat.zero_add _, by rw [hdec]; exact Nat.zero_add _, ?_, ?_, ?_⟩
  · unfold ESt.encode
    simp only [hcreate, hT0, hw, hws, hD.trans]
  · intro hB
    have hd1l := hbnd hB
    have k1 := bufValues_bytes s
    have k2 := bufValues_length_le s
    have k3 := hsmall.bufs
    have k4 := hsmall.lens
    have k5 := hsmall.count
    have k6 := hsmall.enc
    have k7 := hD.size
    have k8 := hD.count
    have k9 := packOffsets_length offs none
    have hh1 := (hread (by omega)).1
    have hhl : (hd1 ++ statesHeader s T sm first).length < 2 ^ 64 := by
      rw [List.length_append]
      omega
    have m1 := encodeCompressed_length_le hB t hhl
    have m2 := encodeCompressed_length_le hB t (d := packOffsets none offs) (by omega)
    rw [encodeLengthPrefixed_eq hhl]
    simp only [List.length_append, List.length_singleton] at m1 ⊢
    have m3 := flatMap_writeVarint_length (l := [(encodeCompressed C t (hd1 ++ statesHeader s T sm first)).length]) (by simp; omega)
    simp only [List.flatMap_cons, List.flatMap_nil, List.append_nil, List.length_singleton] at m3
    omega
  intro hdl
  -- parsing
  have htl : (packOffsets none offs).length < 2 ^ 64 := by
    have := packOffsets_length offs none
    have := hD.count
    omega
  simp only [List.length_append, List.length_singleton] at hdl
  have hh1 := (hread (by omega)).1
  have hhl : (hd1 ++ statesHeader s T sm first).length < 2 ^ 64 := by
    rw [List.length_append]
    have := hD.size
    omega
  rw [encodeLengthPrefixed_eq hhl, List.length_append] at hdl
  let c : Ctx := ⟨nodesOf s T sm, (bufValues s).map some,
    if (nodesOf s T sm).any (fun n => n.cb == .nonProto) then some (((bufValues s).map some).length - 1) else none, first, none,
    (packOffsets none offs, true)⟩
  have hparse : parse C [[]] ([t] ++ encodeLengthPrefixed C t (hd1 ++ statesHeader s T sm first) ++ d1 ++
      encodeCompressed C t (packOffsets none offs)) = some c := by
    unfold parse
    have hpp : parseProjection [] [[]] = some none := rfl
    rw [hpp, encodeLengthPrefixed_eq hhl]
    simp only [List.cons_append, List.append_assoc, List.nil_append]
    rw [readVarint_write (by omega) (by omega)]
    simp only
    rw [if_neg (by simp only [List.length_append]; omega), List.take_left' rfl, List.drop_left' rfl, decompressor_encode hC ht hhl]
    simp only [Option.isSome_none, Bool.false_eq_true, if_false]
    rw [(hread (by omega)).2]
    simp only [Option.map_some]
    rw [parseStates_write hops hk (by simpa using hkl) hssz hD.lt hD.base hD.loop]
    simp only
    rw [decompressor_encode hC ht htl]
  unfold decode
  rw [hparse]
  simp only [c]
  -- the nodes on the path
  have hat : ∀ p ∈ ps, nodeAt (nodesOf s T sm) p = nodeFor s T sm (sm.get p) := fun p hp => nodesOf_at s T sm (hD.inside p hp)
  have hlens : ∀ p, p < sm.size → ∀ op, stateNode s.tags (sm.get p) = some op → op.1.tag = 0 → op.1.parent = kNonProto →
      (nodesOf s T sm).any (fun n => n.cb == .nonProto) = true := by
    intro p hp op ho h1 h2
    refine List.any_eq_true.2 ⟨nodeFor s T sm (sm.get p), List.mem_map.2 ⟨_, List.mem_map.2 ⟨p, List.mem_range.2 hp, rfl⟩, rfl⟩, ?_⟩
    obtain ⟨id, sub⟩ := op
    simp only at h1 h2
    simp [nodeFor, ho, nodeOf, h1, h2]
  obtain ⟨d', hloop, hrel⟩ := decodeLoop_path (keys := bufferKeys s)
    (env := ⟨rs.length, rs.flatten.length,
      if (nodesOf s T sm).any (fun n => n.cb == .nonProto) then some (((bufValues s).map some).length - 1) else none,
      (none : Option (List IncField)).getD []⟩)
    (opAt := fun p => stateNode s.tags (sm.get p)) hD.path
    (by
      intro p hp
      rw [hat p hp]
      exact ⟨_, _, rfl⟩)
    (by
      intro p hp op ho
      have hpl := hD.inside p hp
      have hso : SOk (bufferKeys s) (some op) := hops _ (List.mem_map.2 ⟨sm.get p, List.mem_map.2 ⟨p, List.mem_range.2 hpl, rfl⟩, ho⟩)
      refine ⟨hso.1, hso.2, ?_⟩
      intro h1 h2
      simp only [hlens p hpl op ho h1 h2, if_true]
      simp)
    (d := DSt.init c) (a := ⟨absData s, s.lens, [], [], []⟩)
    (a' := ⟨absData ESt.empty, ESt.empty.lens, rs.flatten ++ [], Added.limitsBack ([] : Bytes).length rs ++ [], []⟩)
    rfl
    (by
      intro hi
      show 1 ≤ if (nodeAt (nodesOf s T sm) first).implicit then 1 else 0
      rw [if_pos hi]
      omega)
    (by
      have : pending (nodeAt (nodesOf s T sm)) (DSt.init c) = expand (packOffsets none offs) := by
        unfold pending
        show List.replicate ((if (nodeAt (nodesOf s T sm) first).implicit then 1 else 0) -
          (if (nodeAt (nodesOf s T sm) first).implicit then 1 else 0)) 0 ++ expand (packOffsets none offs) = _
        rw [Nat.sub_self]; rfl
      rw [this]
      exact (expand_packOffsets offs hD.le).1)
    (by
      constructor
      · rfl
      · intro id hid
        show (((bufValues s).map some)[(bufferKeys s).idxOf id]?).bind (fun x => x) = _
        rw [List.getElem?_map, bufValues_key hg hid]; rfl
      · intro i hi
        simp only at hi
        split at hi
        · rename_i hany
          cases hi
          obtain ⟨n, hn, hcb⟩ := List.any_eq_true.1 hany
          obtain ⟨st, hst, rfl⟩ := List.mem_map.1 hn
          have hcb' : (nodeOf (bufferKeys s) (stateNode s.tags st)).cb = .nonProto := by simpa [nodeFor] using hcb
          obtain ⟨id, sub, k1, k2, k3⟩ := nodeOf_nonProto hcb'
          have hm : (id, sub) ∈ s.tags := by
            unfold stateNode at k1
            cases he : st.etag with
            | none => rw [he] at k1; cases k1
            | some e => rw [he] at k1; exact List.mem_of_getElem? k1
          have hwf := hg.wf _ hm
          have hl : s.lens ≠ [] := by
            apply hg.lens
            rcases hwf with ⟨_, _, hsub⟩ | ⟨h8, _⟩
            · obtain ⟨par, tag⟩ := id
              simp only at k2 k3 hsub
              subst k2 k3 hsub
              exact hm
            · simp only at h8; omega
          obtain ⟨l1, l2⟩ := bufValues_lens hl
          rw [List.length_map, l1]
          refine ⟨by omega, ?_⟩
          show (((bufValues s).map some)[(bufferKeys s).length + 1 - 1]?).bind (fun x => x) = _
          rw [Nat.add_sub_cancel, List.getElem?_map, l2]; rfl
        · cases hi
      · rfl
      · rfl
      · rfl
      · rfl
      · intro x hx; cases hx)
    (by
      have e : ps.filterMap (fun p => stateNode s.tags (sm.get p)) = s.enc.filterMap (s.tags[·]?) := by
        rw [← hD.tags, List.filterMap_filterMap]
        rfl
      rw [e]
      have henc' : s.enc = new := by rw [henc]; simp [ESt.empty]
      rw [henc']
      exact hrun s.tags (List.prefix_refl _) [] [])
    (by simp)
    (by simp [limitsBack_length])
  rw [hloop]
  simp only
  have hst : d'.stack = [] := by
    have := hrel.stack
    simp only at this
    exact List.map_eq_nil_iff.1 this.symm
  have hdest : d'.dest = rs.flatten := by rw [hrel.dest]; simp
  have hlim : d'.limits = Added.limitsBack 0 rs := by rw [hrel.limits]; simp
  have hfin : ∀ env : Env, env.numRecords = rs.length → finish env true d' = some (limitsFrom 0 rs) := by
    intro env he
    unfold finish
    rw [if_neg (by simp), if_neg (by simp [hst]), if_neg (by simp [hrel.skipped]), hlim, he,
      if_neg (by simp [limitsBack_length])]
    simp only [limitsBack_headD, hdest]
    rw [if_neg (by simp), reverseLimits_back]
  rw [hfin _ rfl]
  simp [hdest]

end Riegeli.Tr

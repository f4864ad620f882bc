import Verif.TrRun
import Verif.TrBufs
/-!
# Transposed chunks: states are read back
-/
namespace Riegeli.Tr

theorem readVarints_write {w : Nat} (hw : 7 < w) : ∀ (l : List Nat) (h : Bytes), (∀ x ∈ l, x < 2 ^ w) →
    readVarints w l.length (l.flatMap writeVarint ++ h) = some (l, h)
  | [], h, _ => rfl
  | x :: l, h, hx => by
    simp only [List.length_cons, List.flatMap_cons, List.append_assoc, readVarints]
    rw [readVarint_write hw (hx x List.mem_cons_self)]
    simp only
    rw [readVarints_write hw l h (fun y hy => hx y (List.mem_cons_of_mem _ hy))]

/-- The tag written for a state. -/
def wTag : Option (NodeId × Nat) → Nat
  | none => 0
  | some n => stateTag n.1 n.2

/-- The subtype written for a state. -/
def wSub : Option (NodeId × Nat) → Bytes
  | none => []
  | some n => stateSubtype n.1 n.2

/-- The buffer index written for a state. -/
def wBuf (keys : List NodeId) : Option (NodeId × Nat) → Bytes
  | none => []
  | some n =>
    match stateBuffer n.1 n.2 with
    | none => []
    | some id => writeVarint (keys.idxOf id)

/-- A state which the encoder creates. -/
def SOk (keys : List NodeId) : Option (NodeId × Nat) → Prop
  | none => True
  | some n => OpWF n ∧ ∀ id, stateBuffer n.1 n.2 = some id → id ∈ keys

theorem readBufIdx_write {keys : List NodeId} {id : NodeId} (hid : id ∈ keys) (h32 : keys.length < 2 ^ 32) {nb : Nat}
    (hnb : keys.length ≤ nb) (h : Bytes) : readBufIdx nb (writeVarint (keys.idxOf id) ++ h) = some (keys.idxOf id, h) := by
  have := List.idxOf_lt_length_iff.2 hid
  unfold readBufIdx
  rw [readVarint_write (by omega) (by omega)]
  simp only
  rw [if_neg (by omega)]

theorem parseNode_write {keys : List NodeId} (h32 : keys.length < 2 ^ 32) {nb : Nat} (hnb : keys.length ≤ nb)
    {op : Option (NodeId × Nat)} (hop : SOk keys op) (subs h : Bytes) :
    parseNode false nb (wTag op) (wSub op ++ subs) (wBuf keys op ++ h) = some (nodeOf keys op, subs, h) := by
  cases op with
  | none => simp [wTag, wSub, wBuf, parseNode, nodeOf]
  | some n =>
    obtain ⟨id, sub⟩ := n
    obtain ⟨hwf, hbuf⟩ := hop
    simp only [wTag, wSub, nodeOf]
    simp only at hbuf
    rcases hwf with ⟨h0, hpar, hsub⟩ | ⟨h8, h32t, hw5, hs0, hs2, hsx⟩
    · simp only at h0 hpar hsub
      rcases hpar with hpar | hpar
      · have hb : stateBuffer id sub = some id := by simp [stateBuffer, h0, hpar]
        have hid := hbuf id hb
        simp only [wBuf, hb, stateTag, stateSubtype, h0, hpar, ne_eq, not_true_eq_false, if_false, List.nil_append, if_true]
        unfold parseNode
        rw [if_neg (by decide), if_pos rfl, readBufIdx_write hid h32 hnb]
      · have hp1 : ¬ (3 : Nat) = kNonProto := by decide
        have hb : stateBuffer id sub = none := by simp [stateBuffer, h0, hpar, kNonProto, kStartOfMessage]
        simp only [wBuf, hb, stateTag, stateSubtype, h0, hpar, ne_eq, not_true_eq_false, if_false, List.nil_append, if_true]
        unfold parseNode
        rw [if_neg (by decide), if_neg (by decide), if_pos rfl, if_neg (by decide)]
    · simp only at h8 h32t hw5 hs0 hs2 hsx
      have h0 : ¬ id.tag = 0 := by omega
      by_cases hstart : wireType id.tag = 2 ∧ sub = kSubStart
      · have hb : stateBuffer id sub = none := by simp [stateBuffer, h0, hstart.1, hstart.2]
        have ht : stateTag id sub = kStartOfSubmessage := by simp [stateTag, h0, hstart.1, hstart.2]
        have hsb : stateSubtype id sub = [] := by simp [stateSubtype, h0, hstart.1, hstart.2]
        simp only [wBuf, hb, ht, hsb, List.nil_append, if_neg h0, if_pos hstart]
        unfold parseNode
        rw [if_neg (by decide), if_neg (by decide), if_neg (by decide), if_pos rfl]
        rfl
      · -- the node proper, after the tag, subtype and buffer are known
        simp only [if_neg h0, if_neg hstart]
        have htag : ∀ tag, tag = stateTag id sub → tag ≠ 0 ∧ tag ≠ kNonProto ∧ tag ≠ kStartOfMessage ∧
            tag ≠ kStartOfSubmessage ∧ (if (wireType tag == 6) = true then tag - 4 else tag) = id.tag ∧
            ((wireType tag == 6) = true ↔ wireType id.tag = 2 ∧ sub = kSubEnd) := by
          intro tag htg
          have hne : ∀ k, k < 8 → k + 8 ≤ tag + 8 - k → True := fun _ _ _ => trivial
          unfold stateTag at htg
          rw [if_pos (by simpa using h0), if_neg hstart] at htg
          by_cases he : wireType id.tag = 2 ∧ sub = kSubEnd
          · rw [if_pos he] at htg
            have h6 : wireType tag = 6 := by
              have := he.1; unfold wireType at this ⊢; omega
            refine ⟨by omega, by unfold kNonProto; omega, by unfold kStartOfMessage; omega,
              by unfold kStartOfSubmessage; omega, ?_, ?_⟩
            · rw [if_pos (by simp [h6])]; omega
            · simp [h6, he]
          · rw [if_neg he] at htg
            have h6 : wireType tag ≠ 6 := by rw [htg]; omega
            refine ⟨by omega, by unfold kNonProto; omega, by unfold kStartOfMessage; omega,
              by unfold kStartOfSubmessage; omega, ?_, ?_⟩
            · rw [if_neg (by simp [h6]), htg]
            · simp [h6, he]
        obtain ⟨t1, t2, t3, t4, t5, t6⟩ := htag _ rfl
        unfold parseNode
        rw [if_neg t1, if_neg t2, if_neg t3, if_neg t4]
        simp only [t5]
        have hvalid : validTag id.tag = true := by simp [validTag, h8]; omega
        rw [if_neg (by simp [hvalid])]
        -- subtype
        have hsubr : nextSubtype id.tag (wireType (stateTag id sub) == 6) (stateSubtype id sub ++ subs) =
            some (sub, subs) := by
          unfold nextSubtype
          by_cases hw0 : wireType id.tag = 0
          · have hst : stateSubtype id sub = [UInt8.ofNat sub] := by
              unfold stateSubtype
              rw [if_pos (by simpa using h0), if_neg (by rw [hw0]; omega), if_pos (by simp [hasSubtype, hw0])]
            rw [if_pos (by simp [hasSubtype, hw0]), hst]
            simp only [List.cons_append, List.nil_append]
            have := hs0 hw0
            rw [ofNat_toNat (by simp only [kVarintInline0] at this; omega)]
          · have hst : stateSubtype id sub = [] := by
              unfold stateSubtype
              rw [if_pos (by simpa using h0)]
              split
              · rfl
              · rw [if_neg (by simp [hasSubtype, hw0])]
            rw [if_neg (by simp [hasSubtype, hw0]), hst, List.nil_append]
            by_cases he : wireType id.tag = 2 ∧ sub = kSubEnd
            · rw [if_pos (t6.2 he), he.2]
            · rw [if_neg (fun h => he (t6.1 h))]
              by_cases hw2 : wireType id.tag = 2
              · have := hs2 hw2
                have e1 : sub ≠ 1 := fun h => hstart ⟨hw2, h⟩
                have e2 : sub ≠ 2 := fun h => he ⟨hw2, h⟩
                have : sub = 0 := by omega
                rw [this]
              · rw [hsx hw0 hw2]
        rw [hsubr]
        simp only
        -- buffer
        have hsbuf : stateBuffer id sub = if hasDataBuffer id.tag sub then some id else none := by
          unfold stateBuffer
          rw [if_pos (by simpa using h0)]
          split
          · rename_i hc
            have hse : sub = kSubEnd := by
              rcases hc.2 with h | h
              · exact absurd ⟨hc.1, h⟩ hstart
              · exact h
            have : hasDataBuffer id.tag sub = false := by
              unfold hasDataBuffer; rw [hc.1]; simp [hse, kSubEnd, kString]
            rw [this]; rfl
          · rfl
        have hbufr : (if hasDataBuffer id.tag sub = true then
            (readBufIdx nb (wBuf keys (some (id, sub)) ++ h)).map (fun r => (some r.1, r.2))
          else some (none, wBuf keys (some (id, sub)) ++ h)) =
            some (if hasDataBuffer id.tag sub = true then some (keys.idxOf id) else none, h) := by
          by_cases hd : hasDataBuffer id.tag sub = true
          · simp only [wBuf, hsbuf, hd, if_true]
            rw [readBufIdx_write (hbuf id (by rw [hsbuf, if_pos hd])) h32 hnb]
            rfl
          · simp only [wBuf, hsbuf, hd]
            rfl
        rw [hbufr]
        simp only [Bool.false_eq_true, if_false]
        have hcb : callbackType .yes id.tag sub (writeVarint id.tag).length false ≠ .unknown := by
          unfold callbackType
          have hcases : wireType id.tag = 0 ∨ wireType id.tag = 1 ∨ wireType id.tag = 2 ∨ wireType id.tag = 3 ∨
            wireType id.tag = 4 ∨ wireType id.tag = 5 := by omega
          rcases hcases with hw | hw | hw | hw | hw | hw
          · have := hs0 hw
            simp only [hw, varintCb]
            rw [if_neg (by omega)]
            split <;> simp
          · simp [hw]
          · have := hs2 hw
            have e1 : sub ≠ 1 := fun h => hstart ⟨hw, h⟩
            simp only [hw]
            have e3 : sub = 0 ∨ sub = 2 := by omega
            rcases e3 with e3 | e3 <;> subst e3 <;> simp [kString, kSubEnd]
          · simp [hw]
          · simp [hw]
          · simp [hw]
        rw [if_neg hcb]

theorem parseNodes_write {keys : List NodeId} (h32 : keys.length < 2 ^ 32) {nb size : Nat} (hnb : keys.length ≤ nb) :
    ∀ (sts : List (Option (NodeId × Nat) × Nat)) (h : Bytes), (∀ x ∈ sts, SOk keys x.1 ∧ x.2 < 2 * size) →
    parseNodes false nb size (sts.map (fun x => (wTag x.1, x.2))) (sts.flatMap (fun x => wSub x.1))
      (sts.flatMap (fun x => wBuf keys x.1) ++ h) =
    some (sts.map (fun x => { nodeOf keys x.1 with implicit := decide (size ≤ x.2),
                                                   next := if size ≤ x.2 then x.2 - size else x.2 }), h)
  | [], h, _ => rfl
  | x :: sts, h, hx => by
    obtain ⟨h1, h2⟩ := hx x List.mem_cons_self
    simp only [List.map_cons, List.flatMap_cons, List.append_assoc, parseNodes]
    rw [parseNode_write h32 hnb h1]
    simp only [decide_eq_true_eq]
    rw [if_neg (by split <;> omega), parseNodes_write h32 hnb sts h (fun y hy => hx y (List.mem_cons_of_mem _ hy))]

theorem numSubtypes_eq {keys : List NodeId} : ∀ (ops : List (Option (NodeId × Nat))), (∀ x ∈ ops, SOk keys x) →
    ((ops.map wTag).filter (fun t => validTag t && hasSubtype t)).length = (ops.flatMap wSub).length
  | [], _ => rfl
  | op :: ops, h => by
    have ih := numSubtypes_eq ops (fun x hx => h x (List.mem_cons_of_mem _ hx))
    simp only [List.map_cons, List.flatMap_cons, List.length_append]
    have key : (if validTag (wTag op) && hasSubtype (wTag op) then 1 else 0) = (wSub op).length := by
      have hop := h op List.mem_cons_self
      cases op with
      | none => simp [wTag, wSub, validTag]
      | some n =>
        obtain ⟨id, sub⟩ := n
        obtain ⟨hwf, _⟩ := hop
        show (if validTag (stateTag id sub) && hasSubtype (stateTag id sub) then 1 else 0) = (stateSubtype id sub).length
        rcases hwf with ⟨h0, hpar, hsub⟩ | ⟨h8, h32t, hw5, hs0, hs2, hsx⟩
        · simp only at h0 hpar
          rcases hpar with hpar | hpar <;>
            simp [stateTag, stateSubtype, h0, hpar, validTag, kNonProto, kStartOfMessage]
        · simp only at h8 h32t hw5
          have h0 : ¬ id.tag = 0 := by omega
          by_cases h1 : wireType id.tag = 2 ∧ sub = kSubStart
          · have e1 : stateTag id sub = kStartOfSubmessage := by simp [stateTag, h0, h1.1, h1.2]
            have e2 : stateSubtype id sub = [] := by simp [stateSubtype, h0, h1.1, h1.2]
            rw [e1, e2]; simp [validTag, kStartOfSubmessage]
          · by_cases h2 : wireType id.tag = 2 ∧ sub = kSubEnd
            · have e1 : stateTag id sub = id.tag + 4 := by
                simp [stateTag, h0, h2.1, h2.2, kSubStart, kSubEnd]
              have e2 : stateSubtype id sub = [] := by simp [stateSubtype, h0, h2.1, h2.2]
              have h6 : wireType (id.tag + 4) = 6 := by
                have := h2.1; unfold wireType at this ⊢; omega
              rw [e1, e2]; simp [validTag, h6]
            · have e1 : stateTag id sub = id.tag := by simp only [stateTag, if_neg h1, if_neg h2]; simp [h0]
              have e2 : stateSubtype id sub = if hasSubtype id.tag then [UInt8.ofNat sub] else [] := by
                unfold stateSubtype
                rw [if_pos (by simpa using h0), if_neg]
                rintro ⟨a, b | b⟩
                · exact h1 ⟨a, b⟩
                · exact h2 ⟨a, b⟩
              have hv : validTag id.tag = true := by simp [validTag, h8]; omega
              rw [e1, e2, hv, Bool.true_and]
              cases hasSubtype id.tag <;> simp
    rw [List.filter_cons]
    by_cases hc : (validTag (wTag op) && hasSubtype (wTag op)) = true
    · rw [if_pos hc] at key ⊢; simp only [List.length_cons]; omega
    · rw [if_neg hc] at key ⊢; omega

/-! ## What is written -/

theorem bufferIndices_spec (keys : List NodeId) : ∀ (ids : List NodeId), (∀ id ∈ ids, id ∈ keys) →
    bufferIndices keys ids = some (ids.map keys.idxOf)
  | [], _ => rfl
  | id :: ids, h => by
    unfold bufferIndices
    rw [if_pos (List.idxOf_lt_length_iff.2 (h id List.mem_cons_self)),
      bufferIndices_spec keys ids (fun x hx => h x (List.mem_cons_of_mem _ hx))]
    rfl

theorem sub_flatMap (l : List (Option (NodeId × Nat))) :
    (l.filterMap id).flatMap (fun n => stateSubtype n.1 n.2) = l.flatMap wSub := by
  induction l with
  | nil => rfl
  | cons x l ih =>
    cases x with
    | none => simpa [wSub] using ih
    | some n => simp [wSub, ih]

theorem buf_flatMap (keys : List NodeId) (l : List (Option (NodeId × Nat))) :
    (((l.filterMap id).filterMap (fun n => stateBuffer n.1 n.2)).map keys.idxOf).flatMap writeVarint = l.flatMap (wBuf keys) := by
  induction l with
  | nil => rfl
  | cons x l ih =>
    cases x with
    | none => simpa [wBuf] using ih
    | some n =>
      simp only [List.filterMap_cons, id_eq, List.flatMap_cons, wBuf]
      cases stateBuffer n.1 n.2 with
      | none => simpa using ih
      | some j => simp [ih]

/-- The operations of the states. -/
def smOps (s : ESt) (sm : SM) : List (Option (NodeId × Nat)) := sm.toList.map (stateNode s.tags)

/-- The part of the header which describes the states. -/
def statesHeader (s : ESt) (T : Nat → TagInfo) (sm : SM) (first : Nat) : Bytes :=
  writeVarint sm.size ++ ((smOps s sm).map wTag).flatMap writeVarint ++
    (sm.toList.map (stateBase T sm.size)).flatMap writeVarint ++ (smOps s sm).flatMap wSub ++
    (smOps s sm).flatMap (wBuf (bufferKeys s)) ++ writeVarint first

theorem writeStates_eq {s : ESt} {T : Nat → TagInfo} {sm : SM} {first : Nat}
    (hops : ∀ x ∈ smOps s sm, SOk (bufferKeys s) x)
    (hf : firstPosition sm s.enc = some first) (hsz : sm.size < 2 ^ 32) :
    writeStates s T sm = some (statesHeader s T sm first) := by
  unfold writeStates
  have h1 : sm.toList.filterMap (stateNode s.tags) = (smOps s sm).filterMap id := by
    simp [smOps, List.filterMap_map]
  simp only [h1]
  rw [bufferIndices_spec]
  · simp only [hf, if_pos hsz]
    rw [sub_flatMap, buf_flatMap]
    unfold statesHeader
    simp only [smOps, List.flatMap_map, List.map_map, Function.comp_def]
    congr 6
  · intro id hid
    obtain ⟨n, hn, hb⟩ := List.mem_filterMap.1 hid
    obtain ⟨op, hop, hn⟩ := List.mem_filterMap.1 hn
    simp only [id_eq] at hn
    subst hn
    exact (hops _ hop).2 id hb

/-- The node made of a state. -/
def nodeFor (s : ESt) (T : Nat → TagInfo) (sm : SM) (st : StateInfo) : Node :=
  { nodeOf (bufferKeys s) (stateNode s.tags st) with
    implicit := decide (sm.size ≤ stateBase T sm.size st)
    next := if sm.size ≤ stateBase T sm.size st then stateBase T sm.size st - sm.size else stateBase T sm.size st }

/-- The nodes which the decoder makes. -/
def nodesOf (s : ESt) (T : Nat → TagInfo) (sm : SM) : List Node := sm.toList.map (nodeFor s T sm)

theorem nodesOf_at (s : ESt) (T : Nat → TagInfo) (sm : SM) {p : Nat} (hp : p < sm.size) :
    nodeAt (nodesOf s T sm) p = nodeFor s T sm (sm.get p) := by
  unfold nodeAt nodesOf SM.toList
  simp [List.getD, hp]

theorem nodesOf_out (s : ESt) (T : Nat → TagInfo) (sm : SM) {p : Nat} (hp : sm.size ≤ p) :
    nodeAt (nodesOf s T sm) p = Node.failing := by
  unfold nodeAt nodesOf SM.toList
  rw [List.getD_eq_getElem?_getD, List.getElem?_eq_none (by simpa using hp)]
  rfl

theorem nodeOf_nonProto {keys : List NodeId} {op : Option (NodeId × Nat)} (h : (nodeOf keys op).cb = .nonProto) :
    ∃ id sub, op = some (id, sub) ∧ id.tag = 0 ∧ id.parent = kNonProto := by
  cases op with
  | none => simp [nodeOf] at h
  | some n =>
    obtain ⟨id, sub⟩ := n
    simp only [nodeOf] at h
    split at h
    · split at h
      · rename_i h0 h1; exact ⟨id, sub, rfl, h0, h1⟩
      · simp at h
    · split at h
      · simp at h
      · exfalso
        unfold callbackType varintCb at h
        simp only at h
        repeat' split at h
        all_goals simp at h

/-- The states are read back. -/
theorem parseStates_write {s : ESt} {T : Nat → TagInfo} {sm : SM} {first : Nat} {bufs : List (Option Bytes)}
    (hops : ∀ x ∈ smOps s sm, SOk (bufferKeys s) x) (hk : (bufferKeys s).length < 2 ^ 32)
    (hkb : (bufferKeys s).length ≤ bufs.length) (hsz : 2 * sm.size ≤ 2 ^ 32) (hfirst : first < sm.size)
    (hbase : ∀ p, p < sm.size → stateBase T sm.size (sm.get p) < 2 * sm.size)
    (hloop : containsImplicitLoop (nodeAt (nodesOf s T sm)) (sm.size + 255) = false) :
    parseStates false bufs (statesHeader s T sm first) true =
      some (nodesOf s T sm,
        if (nodesOf s T sm).any (fun n => n.cb == .nonProto) then some (bufs.length - 1) else none, first) := by
  have hlen : (smOps s sm).length = sm.size := by simp [smOps, SM.toList]
  have hlen2 : (sm.toList.map (stateBase T sm.size)).length = sm.size := by simp [SM.toList]
  have hmem : ∀ st ∈ sm.toList, ∃ p, p < sm.size ∧ sm.get p = st := by
    intro st hst
    obtain ⟨p, hp, rfl⟩ := List.mem_map.1 hst
    exact ⟨p, List.mem_range.1 hp, rfl⟩
  unfold parseStates statesHeader
  simp only [List.append_assoc]
  rw [readVarint_write (by omega) (by omega)]
  simp only
  have e1 := readVarints_write (w := 32) (by omega) ((smOps s sm).map wTag)
    ((sm.toList.map (stateBase T sm.size)).flatMap writeVarint ++ ((smOps s sm).flatMap wSub ++
      ((smOps s sm).flatMap (wBuf (bufferKeys s)) ++ writeVarint first))) (by
    intro x hx
    obtain ⟨op, hop, rfl⟩ := List.mem_map.1 hx
    have h := hops op hop
    cases op with
    | none => simp [wTag]
    | some n =>
      obtain ⟨⟨par, tag⟩, sub⟩ := n
      simp only [wTag]
      unfold stateTag
      simp only
      rcases h.1 with ⟨h0, hpar, _⟩ | ⟨h8, h32, hw, _⟩
      · simp only at h0 hpar
        subst h0
        simp only [ne_eq, not_true_eq_false, if_false]
        rcases hpar with hpar | hpar <;> rw [hpar] <;> decide
      · simp only at h8 h32 hw
        rw [if_pos (by omega)]
        split
        · decide
        · split
          · rename_i hh
            have := hh.1
            unfold wireType at this
            omega
          · exact h32)
  rw [List.length_map, hlen] at e1
  rw [e1]
  simp only
  have e2 := readVarints_write (w := 32) (by omega) (sm.toList.map (stateBase T sm.size))
    ((smOps s sm).flatMap wSub ++ ((smOps s sm).flatMap (wBuf (bufferKeys s)) ++ writeVarint first)) (by
    intro x hx
    obtain ⟨st, hst, rfl⟩ := List.mem_map.1 hx
    obtain ⟨p, hp, rfl⟩ := hmem st hst
    have := hbase p hp
    omega)
  rw [hlen2] at e2
  rw [e2]
  simp only
  rw [numSubtypes_eq _ hops, if_neg (by simp only [List.length_append]; omega), List.take_left' rfl, List.drop_left' rfl]
  have e3 := parseNodes_write hk (size := sm.size) hkb
    (sm.toList.map (fun st => (stateNode s.tags st, stateBase T sm.size st))) (writeVarint first) (by
    intro x hx
    obtain ⟨st, hst, rfl⟩ := List.mem_map.1 hx
    obtain ⟨p, hp, rfl⟩ := hmem st hst
    exact ⟨hops _ (List.mem_map.2 ⟨_, hst, rfl⟩), hbase p hp⟩)
  have z : (List.zip ((smOps s sm).map wTag) (sm.toList.map (stateBase T sm.size))) =
      (sm.toList.map (fun st => (stateNode s.tags st, stateBase T sm.size st))).map (fun x => (wTag x.1, x.2)) := by
    simp only [smOps, List.map_map, List.zip_map']
    rfl
  have z2 : (smOps s sm).flatMap wSub =
      (sm.toList.map (fun st => (stateNode s.tags st, stateBase T sm.size st))).flatMap (fun x => wSub x.1) := by
    simp only [smOps, List.flatMap_map]
  have z3 : (smOps s sm).flatMap (wBuf (bufferKeys s)) =
      (sm.toList.map (fun st => (stateNode s.tags st, stateBase T sm.size st))).flatMap (fun x => wBuf (bufferKeys s) x.1) := by
    simp only [smOps, List.flatMap_map]
  rw [z, z2, z3, e3]
  simp only
  have z4 : ((sm.toList.map (fun st => (stateNode s.tags st, stateBase T sm.size st))).map (fun x =>
      { nodeOf (bufferKeys s) x.1 with implicit := decide (sm.size ≤ x.2),
                                       next := if sm.size ≤ x.2 then x.2 - sm.size else x.2 })) = nodesOf s T sm := by
    simp only [List.map_map]; rfl
  rw [z4]
  have e4 := readVarint_write (w := 32) (x := first) (by omega) (by omega) false []
  rw [List.append_nil] at e4
  simp only [Bool.false_eq_true, false_and, if_false, e4, hloop, ne_eq, not_true_eq_false, Bool.true_eq_false, or_self]
  rw [if_neg, if_neg (by omega)]
  rintro ⟨ha, hb⟩
  obtain ⟨n, hn, hcb⟩ := List.any_eq_true.1 ha
  obtain ⟨st, hst, rfl⟩ := List.mem_map.1 hn
  have hso := hops _ (List.mem_map.2 ⟨st, hst, rfl⟩)
  have hcb' : (nodeOf (bufferKeys s) (stateNode s.tags st)).cb = .nonProto := by simpa [nodeFor] using hcb
  obtain ⟨id, sub, h1, h2, h3⟩ := nodeOf_nonProto hcb'
  rw [h1] at hso
  have hin := hso.2 id (by simp [stateBuffer, h2, h3])
  have := List.length_pos_of_mem hin
  omega

end Riegeli.Tr

import Verif.TrColumn
/-!
# Transposed chunks: the loop of the decoder follows the states of the state machine
-/
namespace Riegeli.Tr

/-- The node which the decoder makes of a state, except for the transition. `keys` are the nodes of the buffers
in order. -/
def nodeOf (keys : List NodeId) : Option (NodeId × Nat) → Node
  | none => ⟨0, 0, [], 0, false, .noOp, none, 0⟩
  | some (id, sub) =>
    if id.tag = 0 then
      if id.parent = kNonProto then ⟨kNonProto, 0, [], 0, false, .nonProto, some (keys.idxOf id), 0⟩
      else ⟨kStartOfMessage, 0, [], 0, false, .messageStart, none, 0⟩
    else if wireType id.tag = 2 ∧ sub = kSubStart then
      ⟨kStartOfSubmessage, 0, [], 0, false, .submessageStart, none, 0⟩
    else
      ⟨id.tag, sub, writeVarint id.tag ++
        [if wireType id.tag = 0 ∧ sub ≥ kVarintInline0 then UInt8.ofNat (sub - kVarintInline0) else 0],
        (writeVarint id.tag).length, false, callbackType .yes id.tag sub (writeVarint id.tag).length false,
        if hasDataBuffer id.tag sub then some (keys.idxOf id) else none, 0⟩

/-- `n` is a node made of a state, with any transition. -/
def IsNode (keys : List NodeId) (op : Option (NodeId × Nat)) (n : Node) : Prop :=
  ∃ imp next, n = { nodeOf keys op with implicit := imp, next := next }

/-- The decoder state `d` is like the abstract one. -/
structure Rel (keys : List NodeId) (env : Env) (nodes : Nat → Node) (d : DSt) (a : ASt) : Prop where
  same : d.nodes = nodes
  bufs : ∀ id ∈ keys, d.bufs (keys.idxOf id) = some (a.data id)
  lens : ∀ i, env.lensBuf = some i → keys.length ≤ i ∧ d.bufs i = some a.lens
  dest : d.dest = a.dest
  limits : d.limits = a.limits
  skipped : d.skipped = 0
  stack : a.stack = d.stack.map (fun x => (x.1, (nodes x.2).tag))
  tags : ∀ x ∈ d.stack, (nodes x.2).tagData.take (nodes x.2).tagLen = writeVarint (nodes x.2).tag

theorem idxOf_inj {α : Type} [DecidableEq α] {l : List α} {x y : α} (hx : x ∈ l) (h : l.idxOf x = l.idxOf y) :
    x = y := by
  have h1 := List.idxOf_lt_length_iff.2 hx
  have h2 : l.idxOf y < l.length := h ▸ h1
  have e1 : l[l.idxOf x] = x := List.getElem_idxOf h1
  have e2 : l[l.idxOf y] = y := List.getElem_idxOf h2
  rw [← e1, ← e2]
  simp only [h]

/-- Reading from a buffer. -/
theorem Rel.read {keys : List NodeId} {env : Env} {nodes : Nat → Node} {d : DSt} {a : ASt}
    (h : Rel keys env nodes d a) {id : NodeId} (hid : id ∈ keys) {n : Nat} (hn : n ≤ (a.data id).length) :
    ∃ d', d.read (some (keys.idxOf id)) n = some ((a.data id).take n, d') ∧
      Rel keys env nodes d' { a with data := setData a.data id ((a.data id).drop n) } ∧
      d'.node = d.node ∧ d'.iters = d.iters ∧ d'.trans = d.trans := by
  unfold DSt.read
  simp only [h.bufs id hid]
  rw [if_neg (by omega)]
  refine ⟨_, rfl, ?_, rfl, rfl, rfl⟩
  constructor
  · exact h.same
  · intro j hj
    simp only [setData]
    by_cases hji : j = id
    · subst hji; simp
    · rw [if_neg (fun he => hji (idxOf_inj hj he)), if_neg hji, h.bufs j hj]
  · intro i hi
    obtain ⟨h1, h2⟩ := h.lens i hi
    refine ⟨h1, ?_⟩
    have := List.idxOf_lt_length_iff.2 hid
    simp only
    rw [if_neg (by omega), h2]
  · exact h.dest
  · exact h.limits
  · exact h.skipped
  · exact h.stack
  · exact h.tags

theorem Rel.write {keys : List NodeId} {env : Env} {nodes : Nat → Node} {d : DSt} {a : ASt}
    (h : Rel keys env nodes d a) {x : Bytes} (hx : x.length + a.dest.length ≤ env.maxSize) :
    ∃ d', d.write env x = some d' ∧ Rel keys env nodes d' { a with dest := x ++ a.dest } ∧
      d'.node = d.node ∧ d'.iters = d.iters ∧ d'.trans = d.trans := by
  unfold DSt.write
  rw [if_pos (by rw [h.dest]; omega)]
  exact ⟨_, rfl, ⟨h.same, h.bufs, h.lens, by simp [h.dest], h.limits, h.skipped, h.stack, h.tags⟩, rfl, rfl, rfl⟩

theorem aop_mono {op : NodeId × Nat} {a a' : ASt} (h : aop op a = some a') :
    a.dest.length ≤ a'.dest.length ∧ a.limits.length ≤ a'.limits.length := by
  unfold aop at h
  simp only at h
  repeat' split at h
  all_goals first
    | (cases h; done)
    | (cases h; constructor <;> simp <;> omega)
    | skip

theorem arun_mono : ∀ {ops : List (NodeId × Nat)} {a a' : ASt}, arun ops a = some a' →
    a.dest.length ≤ a'.dest.length ∧ a.limits.length ≤ a'.limits.length
  | [], a, a', h => by cases h; exact ⟨Nat.le_refl _, Nat.le_refl _⟩
  | op :: ops, a, a', h => by
    simp only [arun] at h
    cases h1 : aop op a with
    | none => simp [h1] at h
    | some b =>
      simp only [h1, Option.bind_some] at h
      have e1 := aop_mono h1
      have e2 := arun_mono h
      omega

theorem messageStart_rel {keys : List NodeId} {env : Env} {nodes : Nat → Node} {d : DSt} {a : ASt}
    (h : Rel keys env nodes d a) (hs : a.stack = []) (hl : a.limits.length < env.numRecords) :
    ∃ d', messageStart env d = some d' ∧
      Rel keys env nodes d' { a with limits := a.dest.length :: a.limits } ∧
      d'.node = d.node ∧ d'.iters = d.iters ∧ d'.trans = d.trans := by
  have hst : d.stack = [] := by
    have := h.stack; rw [hs] at this; simpa using this.symm
  unfold messageStart
  rw [if_neg (by simp [hst]), if_neg (by rw [h.limits]; omega)]
  exact ⟨_, rfl, ⟨h.same, h.bufs, h.lens, h.dest, by simp [h.dest, h.limits], h.skipped, h.stack, h.tags⟩,
    rfl, rfl, rfl⟩

theorem peek_rel {keys : List NodeId} {env : Env} {nodes : Nat → Node} {d : DSt} {a : ASt}
    (h : Rel keys env nodes d a) {id : NodeId} (hid : id ∈ keys) :
    d.peek (some (keys.idxOf id)) = a.data id := by
  simp [DSt.peek, h.bufs id hid]

/-- Handling the node of a tag has the effect of the tag. -/
theorem handleNode_rel {keys : List NodeId} {env : Env} {nodes : Nat → Node} {d : DSt} {a a' : ASt}
    {op : NodeId × Nat} (h : Rel keys env nodes d a) (hn : IsNode keys (some op) (nodes d.node)) (hwf : OpWF op)
    (hb : ∀ id, stateBuffer op.1 op.2 = some id → id ∈ keys)
    (hlb : op.1.tag = 0 → op.1.parent = kNonProto → env.lensBuf ≠ none)
    (ha : aop op a = some a') (hsz : a'.dest.length ≤ env.maxSize) (hnr : a'.limits.length ≤ env.numRecords) :
    ∃ d', handleNode env d = some d' ∧ Rel keys env nodes d' a' ∧
      d'.node = d.node ∧ d'.iters = d.iters ∧ d'.trans = d.trans := by
  obtain ⟨id, sub⟩ := op
  obtain ⟨imp, next, hn⟩ := hn
  have hnode : d.nodes d.node = { nodeOf keys (some (id, sub)) with implicit := imp, next := next } := by
    rw [h.same, hn]
  have hself : ∀ x : DSt, (x.node = x.node ∧ x.iters = x.iters ∧ x.trans = x.trans) := fun _ => ⟨rfl, rfl, rfl⟩
  rcases hwf with ⟨h0, hpar, hsub⟩ | ⟨h8, h32, hw5, hs0, hs2, hsx⟩
  · -- records
    simp only at h0 hpar hsub
    rcases hpar with hpar | hpar
    · -- not a proto message
      have hcb : (d.nodes d.node).cb = .nonProto := by rw [hnode]; simp [nodeOf, h0, hpar]
      have hbuf : (d.nodes d.node).buf = some (keys.idxOf id) := by rw [hnode]; simp [nodeOf, h0, hpar]
      have hid : id ∈ keys := hb id (by simp [stateBuffer, h0, hpar])
      obtain ⟨li, hli⟩ := Option.ne_none_iff_exists'.1 (hlb h0 hpar)
      obtain ⟨hl1, hl2⟩ := h.lens li hli
      unfold handleNode
      rw [hcb, if_neg (by simp)]
      unfold callback
      simp only [hcb, hbuf, hli]
      unfold aop at ha
      simp only [h0, hpar, if_true] at ha
      have hpk : d.peek (some li) = a.lens := by simp [DSt.peek, hl2]
      rw [hpk]
      cases hr : readVarint 32 false a.lens with
      | none => simp [hr] at ha
      | some x =>
        obtain ⟨length, rest⟩ := x
        simp only [hr] at ha
        split at ha
        · cases ha
        rename_i hlen
        split at ha
        · cases ha
        rename_i hst
        cases ha
        simp only
        have hrl : rest.length < a.lens.length := readVarint_length (by omega) hr
        have hdrop : a.lens.drop (a.lens.length - rest.length) = rest := by
          obtain ⟨bs, hbs, _⟩ := (readVarint_iff (by omega) false a.lens length rest).1 hr
          rw [hbs, List.length_append, Nat.add_sub_cancel, List.drop_left]
        have hread : d.read (some li) (a.lens.length - rest.length) = some (a.lens.take (a.lens.length - rest.length),
            { d with bufs := fun j => if j = li then some rest else d.bufs j }) := by
          unfold DSt.read
          simp only [hl2]
          rw [if_neg (by omega), hdrop]
        rw [hread]
        simp only
        have h1 : Rel keys env nodes { d with bufs := fun j => if j = li then some rest else d.bufs j }
            { a with lens := rest } := by
          constructor
          · exact h.same
          · intro j hj
            have := List.idxOf_lt_length_iff.2 hj
            simp only
            rw [if_neg (by omega), h.bufs j hj]
          · intro i hi
            rw [hli] at hi
            cases hi
            exact ⟨hl1, by simp⟩
          · exact h.dest
          · exact h.limits
          · exact h.skipped
          · exact h.stack
          · exact h.tags
        obtain ⟨d2, hd2, hr2, e2⟩ := h1.read hid (n := length) (by simp only; omega)
        rw [hd2]
        simp only
        simp only [List.length_append] at hsz
        obtain ⟨d3, hd3, hr3, e3⟩ := hr2.write (x := (a.data id).take length) (by simpa using hsz)
        rw [hd3]
        simp only
        obtain ⟨d4, hd4, hr4, e4⟩ := messageStart_rel hr3 (by simpa using hst) (by simp at hnr; simp only; omega)
        refine ⟨d4, hd4, hr4, ?_, ?_, ?_⟩
        · rw [e4.1, e3.1, e2.1]
        · rw [e4.2.1, e3.2.1, e2.2.1]
        · rw [e4.2.2, e3.2.2, e2.2.2]
    · have hp1 : ¬ id.parent = kNonProto := by rw [hpar]; decide
      have hcb : (d.nodes d.node).cb = .messageStart := by
        rw [hnode]; simp only [nodeOf, if_pos h0, if_neg hp1]
      unfold handleNode
      rw [hcb, if_neg (by simp)]
      unfold callback
      simp only [hcb]
      unfold aop at ha
      simp only [if_pos h0, if_neg hp1, if_pos hpar] at ha
      split at ha
      · cases ha
      rename_i hst
      cases ha
      exact messageStart_rel h (by simpa using hst) (by simp at hnr; omega)
  · simp only at h8 h32 hw5 hs0 hs2 hsx
    have h0 : ¬ id.tag = 0 := by omega
    have hcopy : ∀ k, (d.nodes d.node).cb = .copyTag k → ∀ x, (d.nodes d.node).tagData.take k = x →
        x.length + a.dest.length ≤ env.maxSize →
        ∃ d', handleNode env d = some d' ∧ Rel keys env nodes d' { a with dest := x ++ a.dest } ∧
          d'.node = d.node ∧ d'.iters = d.iters ∧ d'.trans = d.trans := by
      intro k hcb x hx hl
      unfold handleNode
      rw [hcb, if_neg (by simp)]
      unfold callback
      simp only [hcb, hx]
      exact h.write hl
    have hfixed : ∀ k, (d.nodes d.node).cb = .fixed k (writeVarint id.tag).length →
        (d.nodes d.node).tagData.take (writeVarint id.tag).length = writeVarint id.tag →
        (d.nodes d.node).buf = some (keys.idxOf id) → id ∈ keys → k ≤ (a.data id).length →
        (writeVarint id.tag ++ (a.data id).take k ++ a.dest).length ≤ env.maxSize →
        ∃ d', handleNode env d = some d' ∧ Rel keys env nodes d'
          { a with data := setData a.data id ((a.data id).drop k)
                   dest := writeVarint id.tag ++ (a.data id).take k ++ a.dest } ∧
          d'.node = d.node ∧ d'.iters = d.iters ∧ d'.trans = d.trans := by
      intro k hcb htd hbuf hid hk hl
      unfold handleNode
      rw [hcb, if_neg (by simp)]
      unfold callback
      simp only [hcb, hbuf, htd]
      obtain ⟨d2, hd2, hr2, e2⟩ := h.read hid hk
      rw [hd2]
      simp only
      obtain ⟨d3, hd3, hr3, e3⟩ := hr2.write (x := writeVarint id.tag ++ (a.data id).take k)
        (by rw [← List.length_append]; exact hl)
      rw [hd3]
      exact ⟨d3, rfl, hr3, e3.1.trans e2.1, e3.2.1.trans e2.2.1, e3.2.2.trans e2.2.2⟩
    unfold aop at ha
    simp only [if_neg h0] at ha
    by_cases hstart : wireType id.tag = 2 ∧ sub = kSubStart
    · -- start of a submessage
      obtain ⟨hw, rfl⟩ := hstart
      have hcb : (d.nodes d.node).cb = .submessageStart := by rw [hnode]; simp [nodeOf, h0, hw]
      simp only [hw] at ha
      rw [if_neg (by decide), if_pos trivial] at ha
      unfold handleNode
      rw [hcb, if_neg (by simp)]
      unfold callback
      simp only [hcb]
      have hst := h.stack
      cases hds : d.stack with
      | nil => rw [hds] at hst; simp [hst] at ha
      | cons x stack =>
        obtain ⟨pos, e⟩ := x
        rw [hds] at hst
        simp only [List.map_cons] at hst
        rw [hst] at ha
        simp only at ha
        split at ha
        · cases ha
        rename_i hl
        cases ha
        simp only [h.dest]
        rw [if_neg hl]
        have htag := h.tags (pos, e) (by rw [hds]; simp)
        simp only at htag
        have hsame : d.nodes e = nodes e := by rw [h.same]
        rw [hsame, htag]
        have h1 : Rel keys env nodes { d with stack := stack }
            { a with stack := stack.map (fun x => (x.1, (nodes x.2).tag)) } :=
          ⟨h.same, h.bufs, h.lens, h.dest, h.limits, h.skipped, rfl,
            fun x hx => h.tags x (by rw [hds]; exact List.mem_cons_of_mem _ hx)⟩
        obtain ⟨d2, hd2, hr2, e2⟩ := h1.write
          (x := writeVarint (nodes e).tag ++ writeVarint (a.dest.length - pos))
          (by simpa [Nat.add_assoc] using hsz)
        have heq : ({ d with stack := stack } : DSt).write env
          (writeVarint (nodes e).tag ++ writeVarint (a.dest.length - pos)) = some d2 := hd2
        refine ⟨d2, ?_, hr2, e2⟩
        rw [← heq]
        simp [h.dest]
    · have hnode' : d.nodes d.node = ⟨id.tag, sub, writeVarint id.tag ++
          [if wireType id.tag = 0 ∧ sub ≥ kVarintInline0 then UInt8.ofNat (sub - kVarintInline0) else 0],
          (writeVarint id.tag).length, imp, callbackType .yes id.tag sub (writeVarint id.tag).length false,
          if hasDataBuffer id.tag sub then some (keys.idxOf id) else none, next⟩ := by
        rw [hnode]; simp only [nodeOf, if_neg h0, if_neg hstart]
      have hcb : (d.nodes d.node).cb = callbackType .yes id.tag sub (writeVarint id.tag).length false := by
        rw [hnode']
      have htd : (d.nodes d.node).tagData.take (writeVarint id.tag).length = writeVarint id.tag := by
        rw [hnode']; simp
      have hbuf : (d.nodes d.node).buf = if hasDataBuffer id.tag sub then some (keys.idxOf id) else none := by
        rw [hnode']
      have hidk : hasDataBuffer id.tag sub = true → (wireType id.tag = 2 → sub ≠ kSubEnd) → id ∈ keys := by
        intro hd hne
        apply hb id
        unfold stateBuffer
        simp only
        rw [if_pos (by simpa using h0), if_neg, if_pos hd]
        rintro ⟨hw, hs | hs⟩
        · exact hstart ⟨hw, hs⟩
        · exact hne hw hs
      have hcases : wireType id.tag = 0 ∨ wireType id.tag = 1 ∨ wireType id.tag = 2 ∨ wireType id.tag = 3 ∨
          wireType id.tag = 4 ∨ wireType id.tag = 5 := by omega
      rcases hcases with hw | hw | hw | hw | hw | hw
      · -- varint
        simp only [hw] at ha
        have hs := hs0 hw
        split at ha
        · rename_i hin
          cases ha
          have hcb' : (d.nodes d.node).cb = .copyTag ((writeVarint id.tag).length + 1) := by
            rw [hcb]; simp only [callbackType, hw, varintCb]
            rw [if_neg (by omega), if_pos (by omega)]
          refine hcopy _ hcb' _ ?_ (by rw [← List.length_append]; exact hsz)
          rw [hnode']
          simp only [hw, hin, and_self, if_true]
          rw [List.take_of_length_le (by simp)]
        · rename_i hin
          split at ha
          · cases ha
          rename_i hlen
          cases ha
          have hdb : hasDataBuffer id.tag sub = true := by unfold hasDataBuffer; simp [hw]; omega
          have hid := hidk hdb (by omega)
          have hcb' : (d.nodes d.node).cb = .varint (sub + 1) (writeVarint id.tag).length := by
            rw [hcb]; simp only [callbackType, hw, varintCb]
            rw [if_neg (by omega), if_neg (by omega)]
          rw [hdb] at hbuf
          simp only [if_true] at hbuf
          unfold handleNode
          rw [hcb', if_neg (by simp)]
          unfold callback
          simp only [hcb', hbuf, htd]
          obtain ⟨d2, hd2, hr2, e2⟩ := h.read hid (n := sub + 1) (by omega)
          rw [hd2]
          simp only
          obtain ⟨d3, hd3, hr3, e3⟩ := hr2.write (x := writeVarint id.tag ++ maskBuffer ((a.data id).take (sub + 1)))
            (by rw [← List.length_append]; exact hsz)
          rw [hd3]
          exact ⟨d3, rfl, hr3, e3.1.trans e2.1, e3.2.1.trans e2.2.1, e3.2.2.trans e2.2.2⟩
      · -- fixed64
        simp only [hw] at ha
        split at ha
        · cases ha
        cases ha
        have hdb : hasDataBuffer id.tag sub = true := by unfold hasDataBuffer; simp [hw]
        rw [hdb] at hbuf
        exact hfixed 8 (by rw [hcb]; simp [callbackType, hw]) htd hbuf (hidk hdb (by omega)) (by omega) hsz
      · -- length-delimited
        simp only [hw] at ha
        split at ha
        · -- string
          rename_i hstr
          subst hstr
          have hdb : hasDataBuffer id.tag kString = true := by unfold hasDataBuffer; simp [hw]
          have hid := hidk hdb (by intro; decide)
          have hcb' : (d.nodes d.node).cb = .string (writeVarint id.tag).length := by
            rw [hcb]; simp [callbackType, hw]
          rw [hdb] at hbuf
          simp only [if_true] at hbuf
          unfold handleNode
          rw [hcb', if_neg (by simp)]
          unfold callback
          simp only [hcb', hbuf, htd, peek_rel h hid]
          cases hr : readVarint 32 false (a.data id) with
          | none => simp [hr] at ha
          | some x =>
            obtain ⟨length, rest⟩ := x
            simp only [hr] at ha ⊢
            split at ha
            · cases ha
            rename_i hl1
            split at ha
            · cases ha
            rename_i hl2
            cases ha
            rw [if_neg hl1]
            obtain ⟨d2, hd2, hr2, e2⟩ := h.read hid (n := (a.data id).length - rest.length + length) (by omega)
            rw [hd2]
            simp only
            simp only [List.length_append] at hsz
            obtain ⟨d3, hd3, hr3, e3⟩ := hr2.write
              (x := (a.data id).take ((a.data id).length - rest.length + length)) (by simp only; omega)
            rw [hd3]
            simp only
            obtain ⟨d4, hd4, hr4, e4⟩ := hr3.write (x := writeVarint id.tag)
              (by simp only [List.length_append]; omega)
            rw [hd4]
            refine ⟨d4, rfl, ?_, ?_, ?_, ?_⟩
            · simpa [List.append_assoc] using hr4
            · rw [e4.1, e3.1, e2.1]
            · rw [e4.2.1, e3.2.1, e2.2.1]
            · rw [e4.2.2, e3.2.2, e2.2.2]
        · -- end of a submessage
          rename_i hstr
          rw [if_neg (fun hh => hstart ⟨hw, hh⟩)] at ha
          cases ha
          have hs : sub = kSubEnd := by
            have := hs2 hw
            have h1 : sub ≠ 0 := hstr
            have h2 : sub ≠ 1 := fun hh => hstart ⟨hw, hh⟩
            show sub = 2
            omega
          have hcb' : (d.nodes d.node).cb = .submessageEnd := by
            rw [hcb]; simp only [callbackType, hw]
            rw [if_neg hstr, if_pos hs]
          unfold handleNode
          rw [hcb', if_neg (by simp)]
          unfold callback
          simp only [hcb']
          have htag : (nodes d.node).tag = id.tag := by rw [← h.same, hnode']
          refine ⟨_, rfl, ?_, rfl, rfl, rfl⟩
          refine ⟨h.same, h.bufs, h.lens, h.dest, h.limits, h.skipped, ?_, ?_⟩
          · simp only [List.map_cons, htag, h.dest, h.stack]
          · intro x hx
            rcases List.mem_cons.1 hx with rfl | hx
            · simp only
              rw [← h.same, hnode']; simp
            · exact h.tags x hx
      · simp only [hw] at ha
        cases ha
        have hcb' : (d.nodes d.node).cb = .copyTag (writeVarint id.tag).length := by
          rw [hcb]; simp [callbackType, hw]
        exact hcopy _ hcb' _ htd (by simpa using hsz)
      · simp only [hw] at ha
        cases ha
        have hcb' : (d.nodes d.node).cb = .copyTag (writeVarint id.tag).length := by
          rw [hcb]; simp [callbackType, hw]
        exact hcopy _ hcb' _ htd (by simpa using hsz)
      · -- fixed32
        simp only [hw] at ha
        split at ha
        · cases ha
        cases ha
        have hdb : hasDataBuffer id.tag sub = true := by unfold hasDataBuffer; simp [hw]
        rw [hdb] at hbuf
        exact hfixed 4 (by rw [hcb]; simp [callbackType, hw]) htd hbuf (hidk hdb (by omega)) (by omega) hsz

/-! ## Paths -/

/-- Following transitions from node `n`, the offsets being `offs`: the nodes visited. -/
inductive Path (nodes : Nat → Node) : Nat → List Nat → List Nat → Prop
  | done {n : Nat} : (nodes n).implicit = false → Path nodes n [] [n]
  | implicit {n : Nat} {offs ps : List Nat} : (nodes n).implicit = true → Path nodes (nodes n).next offs ps →
      Path nodes n offs (n :: ps)
  | step {n o : Nat} {offs ps : List Nat} : (nodes n).implicit = false → Path nodes ((nodes n).next + o) offs ps →
      Path nodes n (o :: offs) (n :: ps)

/-- The offsets which a transition byte stands for (`transpose_decoder.cc:1441-1454`). -/
def expandByte (b : UInt8) : List Nat := (b.toNat / 4) :: List.replicate (b.toNat % 4) 0

/-- The offsets which transition bytes stand for. -/
def expand (bs : Bytes) : List Nat := bs.flatMap expandByte

/-- Offsets not yet used. -/
def pending (nodes : Nat → Node) (d : DSt) : List Nat :=
  List.replicate (d.iters - if (nodes d.node).implicit then 1 else 0) 0 ++ expand d.trans

/-- The loop of the decoder follows the path. -/
theorem decodeLoop_path {keys : List NodeId} {env : Env} {nodes : Nat → Node} {opAt : Nat → Option (NodeId × Nat)}
    {n : Nat} {offs ps : List Nat} (hp : Path nodes n offs ps)
    (hnode : ∀ p ∈ ps, IsNode keys (opAt p) (nodes p))
    (hops : ∀ p ∈ ps, ∀ op, opAt p = some op → OpWF op ∧ (∀ id, stateBuffer op.1 op.2 = some id → id ∈ keys) ∧
      (op.1.tag = 0 → op.1.parent = kNonProto → env.lensBuf ≠ none)) :
    ∀ {d : DSt} {a a' : ASt}, d.node = n → ((nodes n).implicit = true → 1 ≤ d.iters) → pending nodes d = offs →
    Rel keys env nodes d a → arun (ps.filterMap opAt) a = some a' → a'.dest.length ≤ env.maxSize →
    a'.limits.length ≤ env.numRecords →
    ∃ d', decodeLoop env d = some (some d') ∧ Rel keys env nodes d' a' := by
  have hhandle : ∀ p, IsNode keys (opAt p) (nodes p) → (∀ op, opAt p = some op → OpWF op ∧
      (∀ id, stateBuffer op.1 op.2 = some id → id ∈ keys) ∧
      (op.1.tag = 0 → op.1.parent = kNonProto → env.lensBuf ≠ none)) →
      ∀ (rest : List Nat) {d : DSt} {a a' : ASt}, d.node = p → Rel keys env nodes d a →
      arun ((p :: rest).filterMap opAt) a = some a' → a'.dest.length ≤ env.maxSize →
      a'.limits.length ≤ env.numRecords →
      ∃ d1 a1, handleNode env d = some d1 ∧ Rel keys env nodes d1 a1 ∧ arun (rest.filterMap opAt) a1 = some a' ∧
        d1.node = d.node ∧ d1.iters = d.iters ∧ d1.trans = d.trans := by
    intro p hn ho rest d a a' hd hr hrun hsz hnr
    cases hop : opAt p with
    | none =>
      simp only [List.filterMap_cons, hop] at hrun
      rw [hop] at hn
      obtain ⟨imp, next, hn⟩ := hn
      refine ⟨d, a, ?_, hr, hrun, rfl, rfl, rfl⟩
      have hcb : (d.nodes d.node).cb = .noOp := by rw [hr.same, hd, hn]; rfl
      unfold handleNode
      rw [hcb, if_neg (by simp)]
      unfold callback
      simp only [hcb]
    | some op =>
      simp only [List.filterMap_cons, hop, arun] at hrun
      cases ha : aop op a with
      | none => simp [ha] at hrun
      | some a1 =>
        simp only [ha, Option.bind_some] at hrun
        have hm := arun_mono hrun
        rw [hop] at hn
        obtain ⟨w1, w2, w3⟩ := ho op hop
        subst hd
        obtain ⟨d1, e1, e2, e3⟩ := handleNode_rel hr hn w1 w2 w3 ha (by omega) (by omega)
        exact ⟨d1, a1, e1, e2, hrun, e3⟩
  induction hp with
  | @done n hi =>
    intro d a a' hd _ hpend hr hrun hsz hnr
    obtain ⟨d1, a1, e1, e2, e3, e4, e5, e6⟩ := hhandle n (hnode n (by simp)) (hops n (by simp)) [] hd hr hrun hsz hnr
    cases e3
    refine ⟨d1, ?_, e2⟩
    rw [decodeLoop, e1]
    simp only
    have hp' : d.iters = 0 ∧ d.trans = [] := by
      unfold pending at hpend
      rw [hd, hi] at hpend
      simp only [Bool.false_eq_true, if_false, Nat.sub_zero, List.append_eq_nil_iff, List.replicate_eq_nil_iff] at hpend
      refine ⟨hpend.1, ?_⟩
      cases ht : d.trans with
      | nil => rfl
      | cons b t => rw [ht] at hpend; simp [expand, expandByte] at hpend
    have ht : transitionNode d1 = none := by
      unfold transitionNode
      simp [e5, e6, hp'.1, hp'.2]
    rw [ht]
  | @implicit n offs ps hi hp ih =>
    intro d a a' hd hit hpend hr hrun hsz hnr
    obtain ⟨d1, a1, e1, e2, e3, e4, e5, e6⟩ := hhandle n (hnode n (by simp)) (hops n (by simp)) ps hd hr hrun hsz hnr
    have hit := hit hi
    have hd1 : d1.nodes d1.node = nodes n := by rw [e2.same, e4, hd]
    have ht : transitionNode d1 = some { d1 with node := (nodes n).next
                                                 iters := d.iters - if (nodes (nodes n).next).implicit then 0 else 1 } := by
      unfold transitionNode
      simp only [hd1, e5, e2.same]
      rw [if_neg (by omega)]
    have hr1 : Rel keys env nodes { d1 with node := (nodes n).next
                                            iters := d.iters - if (nodes (nodes n).next).implicit then 0 else 1 } a1 :=
      ⟨e2.same, e2.bufs, e2.lens, e2.dest, e2.limits, e2.skipped, e2.stack, e2.tags⟩
    obtain ⟨d', f1, f2⟩ := ih (fun p hp => hnode p (List.mem_cons_of_mem _ hp))
      (fun p hp => hops p (List.mem_cons_of_mem _ hp)) rfl (by simp only; intro h; rw [if_pos h]; omega)
      (by
        rw [← hpend]; unfold pending; simp only [hd, hi, if_true, e6]
        congr 2
        split <;> simp_all) hr1 e3 hsz hnr
    refine ⟨d', ?_, f2⟩
    rw [decodeLoop, e1]
    simp only [ht]
    exact f1
  | @step n o offs ps hi hp ih =>
    intro d a a' hd hit hpend hr hrun hsz hnr
    obtain ⟨d1, a1, e1, e2, e3, e4, e5, e6⟩ := hhandle n (hnode n (by simp)) (hops n (by simp)) ps hd hr hrun hsz hnr
    have hd1 : d1.nodes d1.node = nodes n := by rw [e2.same, e4, hd]
    unfold pending at hpend
    simp only [hd, hi, Bool.false_eq_true, if_false, Nat.sub_zero] at hpend
    cases hk : d.iters with
    | zero =>
      cases htr : d.trans with
      | nil => rw [hk, htr] at hpend; simp [expand] at hpend
      | cons b t =>
        rw [hk, htr] at hpend
        simp only [List.replicate_zero, List.nil_append, expand, List.flatMap_cons, expandByte, List.cons_append,
          List.cons.injEq] at hpend
        obtain ⟨ho, hoffs⟩ := hpend
        have ht : transitionNode d1 = some { d1 with
            node := (nodes n).next + o, trans := t
            iters := b.toNat % 4 + if (nodes ((nodes n).next + o)).implicit then 1 else 0 } := by
          unfold transitionNode
          simp only [hd1, e5, e6, e2.same, hk, htr, ho, if_true]
        have hr1 : Rel keys env nodes { d1 with
            node := (nodes n).next + o, trans := t
            iters := b.toNat % 4 + if (nodes ((nodes n).next + o)).implicit then 1 else 0 } a1 :=
          ⟨e2.same, e2.bufs, e2.lens, e2.dest, e2.limits, e2.skipped, e2.stack, e2.tags⟩
        obtain ⟨d', f1, f2⟩ := ih (fun p hp => hnode p (List.mem_cons_of_mem _ hp))
          (fun p hp => hops p (List.mem_cons_of_mem _ hp)) rfl (by simp only; intro h; rw [if_pos h]; omega)
          (by unfold pending; simp only [Nat.add_sub_cancel]; exact hoffs) hr1 e3 hsz hnr
        refine ⟨d', ?_, f2⟩
        rw [decodeLoop, e1]
        simp only [ht]
        exact f1
    | succ k =>
      rw [hk] at hpend
      simp only [List.replicate_succ, List.cons_append, List.cons.injEq] at hpend
      obtain ⟨ho, hoffs⟩ := hpend
      subst ho
      have ht : transitionNode d1 = some { d1 with
          node := (nodes n).next + 0
          iters := k + 1 - if (nodes ((nodes n).next + 0)).implicit then 0 else 1 } := by
        unfold transitionNode
        simp only [hd1, e5, e2.same, hk]
        rw [if_neg (by omega)]
        rfl
      have hr1 : Rel keys env nodes { d1 with
          node := (nodes n).next + 0
          iters := k + 1 - if (nodes ((nodes n).next + 0)).implicit then 0 else 1 } a1 :=
        ⟨e2.same, e2.bufs, e2.lens, e2.dest, e2.limits, e2.skipped, e2.stack, e2.tags⟩
      obtain ⟨d', f1, f2⟩ := ih (fun p hp => hnode p (List.mem_cons_of_mem _ hp))
        (fun p hp => hops p (List.mem_cons_of_mem _ hp)) rfl (by simp only; intro h; rw [if_pos h]; omega)
        (by
          rw [← hoffs]; unfold pending; simp only [e6]
          congr 2
          split <;> simp_all) hr1 e3 hsz hnr
      refine ⟨d', ?_, f2⟩
      rw [decodeLoop, e1]
      simp only [ht]
      exact f1

/-! ## Packing of offsets -/

theorem expandByte_ofNat {w k : Nat} (hw : w ≤ 63) (hk : k ≤ 3) :
    expandByte (UInt8.ofNat (w * 4 + k)) = w :: List.replicate k 0 := by
  unfold expandByte
  rw [ofNat_toNat (by omega)]
  rw [show (w * 4 + k) / 4 = w by omega, show (w * 4 + k) % 4 = k by omega]

theorem expand_packOffsets : ∀ (os : List Nat), (∀ o ∈ os, o ≤ 63) →
    expand (packOffsets none os) = os ∧
    ∀ w k, w ≤ 63 → k ≤ 3 → expand (packOffsets (some (w * 4 + k)) os) = w :: List.replicate k 0 ++ os
  | [], _ => by
    refine ⟨rfl, ?_⟩
    intro w k hw hk
    simp only [packOffsets, expand, List.flatMap_cons, List.flatMap_nil, expandByte_ofNat hw hk]
  | o :: os, h => by
    have ho : o ≤ 63 := h o List.mem_cons_self
    have ih := expand_packOffsets os (fun x hx => h x (List.mem_cons_of_mem _ hx))
    constructor
    · have := ih.2 o 0 ho (by omega)
      simpa [packOffsets] using this
    · intro w k hw hk
      simp only [packOffsets]
      split
      · rename_i hc
        obtain ⟨rfl, hc⟩ := hc
        have := ih.2 w (k + 1) hw (by omega)
        rw [← Nat.add_assoc] at this
        rw [this]
        rw [List.replicate_succ']
        simp
      · have := ih.2 o 0 ho (by omega)
        simp only [expand, List.flatMap_cons] at this ⊢
        simp only [Nat.add_zero] at this
        rw [expandByte_ofNat hw hk, this]
        simp

end Riegeli.Tr

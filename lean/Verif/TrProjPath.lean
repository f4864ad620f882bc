import Verif.TrProjEnc
import Verif.TrPath
/-!
# Transposed chunks: the loop of the decoder with projection
-/
namespace Riegeli.Tr
open Riegeli.Proj

/-- Before it is known whether a field is included. -/
def sel (n : Node) : Node :=
  if n.tag = 0 ∨ n.tag = kNonProto ∨ n.tag = kStartOfMessage then n else { n with cb := .select }

/-- After it is known whether a field is included. -/
def resolve (n : Node) (inc : Included) : Node :=
  if n.tag = kStartOfSubmessage then { n with cb := if inc = .no then .skippedStart else .submessageStart }
  else { n with
        buf := if inc = .yes then n.buf else none
        cb := callbackType inc n.tag n.subtype n.tagLen true
        tagData := if inc = .existence ∧ wireType n.tag = 0 then n.tagData.take n.tagLen ++ [0] else n.tagData }

/-- `n` is a node made of a state with projection, with any transition, not resolved yet. -/
def IsSel (keys : List NodeId) (op : Option (NodeId × Nat)) (n : Node) : Prop :=
  ∃ imp next, n = { sel (nodeOf keys op) with implicit := imp, next := next }

/-- The tag in the data of a node. -/
def TagOk (n : Node) : Prop :=
  ∃ b, n.tagData = writeVarint n.tag ++ [b] ∧ n.tagLen = (writeVarint n.tag).length ∧ n.tag < 2 ^ 32

theorem TagOk.take {n : Node} (h : TagOk n) : n.tagData.take n.tagLen = writeVarint n.tag := by
  obtain ⟨b, h1, h2, _⟩ := h
  rw [h1, h2, List.take_left]

theorem TagOk.dataTag {n : Node} (h : TagOk n) : n.dataTag = n.tag := by
  obtain ⟨b, h1, h2, h3⟩ := h
  unfold Node.dataTag
  rw [h1, readVarint_write (by omega) h3]

theorem resolve_fields (n : Node) (inc : Included) :
    (resolve n inc).tag = n.tag ∧ (resolve n inc).subtype = n.subtype ∧ (resolve n inc).tagLen = n.tagLen ∧
    (resolve n inc).implicit = n.implicit ∧ (resolve n inc).next = n.next := by
  unfold resolve
  split <;> exact ⟨rfl, rfl, rfl, rfl, rfl⟩

theorem resolve_tagOk {n : Node} {inc : Included} (h : TagOk n) : TagOk (resolve n inc) := by
  have ht := h.take
  obtain ⟨b, h1, h2, h3⟩ := h
  unfold resolve
  split
  · exact ⟨b, h1, h2, h3⟩
  · by_cases hc : inc = .existence ∧ wireType n.tag = 0
    · refine ⟨0, ?_, h2, h3⟩
      simp only [hc, and_self, if_true, ht]
    · refine ⟨b, ?_, h2, h3⟩
      simp only [hc, if_false]; exact h1

/-- The decoder state `d` is like the abstract one. `keep` tells which buffers are used. -/
structure RelP (keys : List NodeId) (env : Env) (nodes0 : Nat → Node) (opAt : Nat → Option (NodeId × Nat))
    (inc : NodeId × Nat → Included) (keep : NodeId → Prop) (d : DSt) (a : PSt) : Prop where
  node : ∀ p, d.nodes p = nodes0 p ∨ ∃ op, opAt p = some op ∧ op.1.tag ≠ 0 ∧ d.nodes p = resolve (nodes0 p) (inc op)
  present : ∀ id ∈ keys, d.bufs (keys.idxOf id) ≠ none
  bufs : ∀ id ∈ keys, keep id → d.bufs (keys.idxOf id) = some (a.data id)
  lens : ∀ i, env.lensBuf = some i → keys.length ≤ i ∧ d.bufs i = some a.lens
  dest : d.dest = a.dest
  limits : d.limits = a.limits
  skipped : d.skipped = a.skipped
  stack : a.stack = d.stack.map (fun x => (x.1, (nodes0 x.2).tag))
  tags : ∀ x ∈ d.stack, TagOk (nodes0 x.2)

section
variable {keys : List NodeId} {env : Env} {nodes0 : Nat → Node} {opAt : Nat → Option (NodeId × Nat)}
  {inc : NodeId × Nat → Included} {keep : NodeId → Prop} {d : DSt} {a : PSt}

theorem RelP.fields (h : RelP keys env nodes0 opAt inc keep d a) (p : Nat) :
    (d.nodes p).tag = (nodes0 p).tag ∧ (d.nodes p).subtype = (nodes0 p).subtype ∧ (d.nodes p).tagLen = (nodes0 p).tagLen ∧
    (d.nodes p).implicit = (nodes0 p).implicit ∧ (d.nodes p).next = (nodes0 p).next := by
  rcases h.node p with h1 | ⟨op, _, _, h1⟩
  · rw [h1]; exact ⟨rfl, rfl, rfl, rfl, rfl⟩
  · rw [h1]; exact resolve_fields _ _

theorem RelP.tagOk (h : RelP keys env nodes0 opAt inc keep d a) {p : Nat} (ht : TagOk (nodes0 p)) : TagOk (d.nodes p) := by
  rcases h.node p with h1 | ⟨op, _, _, h1⟩
  · rw [h1]; exact ht
  · rw [h1]; exact resolve_tagOk ht

theorem stackIncluded_walk (m : List IncField) (nodes : Nat → Node) : ∀ (l : List Nat) (id : Option Nat),
    stackIncluded m nodes id l = walk m id (l.map (fun i => fieldNumber (nodes i).dataTag))
  | [], id => rfl
  | i :: l, id => by
    rw [stackIncluded, List.map_cons, walk]
    cases findField m id (fieldNumber (nodes i).dataTag) with
    | none => rfl
    | some f =>
      simp only
      split
      · rfl
      · exact stackIncluded_walk m nodes l _

/-- The numbers on the stack. -/
theorem RelP.nums (h : RelP keys env nodes0 opAt inc keep d a) :
    ((d.stack.map (·.2)).reverse).map (fun i => fieldNumber (d.nodes i).dataTag) = Tr.nums a.stack := by
  unfold Tr.nums
  rw [h.stack, List.map_reverse, List.map_map, List.map_map]
  congr 1
  apply List.map_congr_left
  intro x hx
  simp only [Function.comp_apply]
  rw [(h.tagOk (h.tags x hx)).dataTag, (h.fields x.2).1]

theorem RelP.write {x : Bytes} (h : RelP keys env nodes0 opAt inc keep d a) (hx : x.length + a.dest.length ≤ env.maxSize) :
    ∃ d', d.write env x = some d' ∧ RelP keys env nodes0 opAt inc keep d' { a with dest := x ++ a.dest } ∧
      d'.node = d.node ∧ d'.iters = d.iters ∧ d'.trans = d.trans := by
  unfold DSt.write
  rw [if_pos (by rw [h.dest]; omega)]
  exact ⟨_, rfl, ⟨h.node, h.present, h.bufs, h.lens, by simp [h.dest], h.limits, h.skipped, h.stack, h.tags⟩, rfl, rfl, rfl⟩

/-- The effect of a tag depends only on its buffer. -/
theorem aop_congr {op : NodeId × Nat} {data data' : NodeId → Bytes} {lens D : Bytes} {L : List Nat} {S : List (Nat × Nat)} {r : ASt}
    (hd : data op.1 = data' op.1) (h : aop op ⟨data, lens, D, L, S⟩ = some r) :
    (∀ j, j ≠ op.1 → r.data j = data j) ∧
    aop op ⟨data', lens, D, L, S⟩ = some { r with data := setData data' op.1 (r.data op.1) } := by
  obtain ⟨id, sub⟩ := op
  simp only at hd
  have hs : ∀ x, setData data' id (setData data id x id) = setData data' id x := by intro x; rw [setData_same]
  have hs2 : setData data' id (data id) = data' := by rw [hd, setData_self]
  have hj : ∀ x j, j ≠ id → setData data id x j = data j := by intro x j hj; unfold setData; rw [if_neg hj]
  unfold aop at h ⊢
  simp only [← hd] at h ⊢
  repeat' split at h
  all_goals first
    | (cases h; done)
    | (cases h; refine ⟨fun j hj' => ?_, ?_⟩
       · first | rfl | exact hj _ _ hj'
       · simp only [hs2, setData_same] <;> simp_all <;> try (rw [if_neg (by omega), if_neg (by omega)]))

theorem callbackType_ne_select (inc : Included) (tag sub len : Nat) (p : Bool) : callbackType inc tag sub len p ≠ .select := by
  unfold callbackType varintCb
  repeat' split
  all_goals simp

theorem resolve_ne_select (n : Node) (inc : Included) : (resolve n inc).cb ≠ .select := by
  unfold resolve
  split
  · simp only; split <;> simp
  · exact callbackType_ne_select _ _ _ _ _

/-- The node of a field before it is resolved. -/
theorem isSel_field {op : NodeId × Nat} {n : Node} (h : IsSel keys (some op) n) (h8 : 8 ≤ op.1.tag)
    (hk : kindOf op ≠ .subStart) : ∃ imp next, n = ⟨op.1.tag, op.2, writeVarint op.1.tag ++
      [if wireType op.1.tag = 0 ∧ op.2 ≥ kVarintInline0 then UInt8.ofNat (op.2 - kVarintInline0) else 0],
      (writeVarint op.1.tag).length, imp, .select,
      if hasDataBuffer op.1.tag op.2 then some (keys.idxOf op.1) else none, next⟩ := by
  obtain ⟨id, sub⟩ := op
  obtain ⟨imp, next, hn⟩ := h
  refine ⟨imp, next, ?_⟩
  simp only at h8 ⊢
  have h0 : ¬ id.tag = 0 := by omega
  have hs : ¬ (wireType id.tag = 2 ∧ sub = kSubStart) := by
    rintro ⟨h1, h2⟩
    exact hk (by unfold kindOf; simp [h1, h2, kSubStart, kString])
  rw [hn]
  have hc1 : ¬ id.tag = kNonProto := by unfold kNonProto; omega
  have hc2 : ¬ id.tag = kStartOfMessage := by unfold kStartOfMessage; omega
  unfold nodeOf sel
  simp only [h0, hs, hc1, hc2, or_self, if_false]

theorem isSel_start {op : NodeId × Nat} {n : Node} (h : IsSel keys (some op) n) (h8 : 8 ≤ op.1.tag)
    (hk : kindOf op = .subStart) : ∃ imp next, n = ⟨kStartOfSubmessage, 0, [], 0, imp, .select, none, next⟩ := by
  obtain ⟨id, sub⟩ := op
  obtain ⟨imp, next, hn⟩ := h
  refine ⟨imp, next, ?_⟩
  simp only at h8
  have h0 : ¬ id.tag = 0 := by omega
  have hs : wireType id.tag = 2 ∧ sub = kSubStart := by
    unfold kindOf at hk
    simp only at hk
    repeat' split at hk
    all_goals first | (cases hk; done) | exact ⟨by assumption, by assumption⟩
  rw [hn]
  unfold nodeOf sel
  simp only [h0, hs, and_self, if_true, if_false]
  rw [if_neg (by simp only [kNonProto, kStartOfMessage, kStartOfSubmessage]; omega)]

/-- What the decoder computes. -/
theorem fieldIncluded_online {m : List IncField} (h : RelP keys env nodes0 opAt inc keep d a) {n : Node} (hn : TagOk n)
    {op : NodeId × Nat} (ht : n.tag = op.1.tag) (hk : kindOf op ≠ .subStart) :
    (kindOf op ≠ .groupStart → fieldIncluded m d.skipped (d.stack.map (·.2)).reverse d.nodes n = online m a op) ∧
    (kindOf op = .groupStart → (fieldIncluded m d.skipped (d.stack.map (·.2)).reverse d.nodes n = .no ↔ online m a op = .no)) := by
  have hw : wireType n.tag = 3 ↔ kindOf op = .groupStart := by
    rw [ht]
    unfold kindOf
    repeat' split
    all_goals simp_all
  unfold fieldIncluded online
  simp only
  rw [stackIncluded_walk, h.nums, hn.dataTag, ht, h.skipped]
  by_cases h0 : a.skipped = 0
  · simp only [h0, if_true, gt_iff_lt, Nat.lt_irrefl, if_false]
    constructor
    · intro hg
      have h3 : wireType op.1.tag ≠ 3 := by rw [← ht]; exact fun hh => hg (hw.1 hh)
      unfold walkLast
      simp only [h3, ne_eq, not_false_eq_true, true_and]
      cases hkk : kindOf op with
      | subStart => exact absurd hkk hk
      | groupStart => exact absurd hkk hg
      | leaf => rfl
      | subEnd => rfl
      | groupEnd => rfl
    · intro hg
      have h3 : wireType op.1.tag = 3 := by rw [← ht]; exact hw.2 hg
      rw [hg]
      simp only [h3, ne_eq, not_true_eq_false, false_and, if_false]
      split <;> simp_all
  · have hp : a.skipped > 0 := by omega
    simp [h0, hp]

theorem kind_wire {op : NodeId × Nat} : (kindOf op = .groupStart ↔ wireType op.1.tag = 3) ∧
    (kindOf op = .groupEnd ↔ wireType op.1.tag = 4) ∧ (kindOf op = .subStart ↔ wireType op.1.tag = 2 ∧ op.2 = kSubStart) ∧
    (kindOf op = .subEnd ↔ wireType op.1.tag = 2 ∧ op.2 ≠ kString ∧ op.2 ≠ kSubStart) := by
  unfold kindOf
  refine ⟨?_, ?_, ?_, ?_⟩
  all_goals
    repeat' split
    all_goals simp_all [kString, kSubStart]

/-- Resolving the current node. -/
theorem resolve_step {m : List IncField} (h : RelP keys env nodes0 opAt inc keep d a) {op : NodeId × Nat}
    (hsel : IsSel keys (some op) (nodes0 d.node)) (hop : opAt d.node = some op) (h8 : 8 ≤ op.1.tag) (h32 : op.1.tag < 2 ^ 32)
    (hb : ∀ id, stateBuffer op.1 op.2 = some id → id ∈ keys) (hm : env.proj = m) (hon : online m a op = inc op)
    (hinc : kindOf op = .subStart ∨ kindOf op = .groupStart → inc op ≠ .existence) :
    ∃ d1, handleNode env d = callback env d1 ∧ RelP keys env nodes0 opAt inc keep d1 a ∧
      d1.nodes d1.node = resolve (nodes0 d.node) (inc op) ∧ d1.node = d.node ∧ d1.iters = d.iters ∧ d1.trans = d.trans ∧
      d1.stack = d.stack := by
  rcases h.node d.node with hn | ⟨op', hop', _, hn⟩
  · -- not resolved yet
    let d1 : DSt := { d with nodes := fun i => if i = d.node then resolve (nodes0 d.node) (inc op) else d.nodes i }
    have hset : setCallbackType env d = some d1 ∧ (nodes0 d.node).cb = .select := by
      by_cases hk : kindOf op = .subStart
      · obtain ⟨imp, next, he⟩ := isSel_start hsel h8 hk
        unfold setCallbackType
        simp only [d1, hn, he, resolve, if_true]
        have : inc op = if d.skipped > 0 then .no else .yes := by
          rw [← hon, h.skipped]
          unfold online
          rw [hk]
        rw [this]
        refine ⟨?_, trivial⟩
        split <;> simp
      · obtain ⟨imp, next, he⟩ := isSel_field hsel h8 hk
        have hto : TagOk (nodes0 d.node) := by rw [he]; exact ⟨_, rfl, rfl, h32⟩
        have htag : (nodes0 d.node).tag = op.1.tag := by rw [he]
        have htag2 : ¬ (nodes0 d.node).tag = kStartOfSubmessage := by rw [htag, kStartOfSubmessage]; omega
        obtain ⟨f1, f2⟩ := fieldIncluded_online (m := m) h hto htag hk
        have hbuf : (nodes0 d.node).buf = if hasDataBuffer op.1.tag op.2 then some (keys.idxOf op.1) else none := by rw [he]
        have hbufs : ¬ ((nodes0 d.node).buf ≠ none ∧ (nodes0 d.node).buf.bind d.bufs = none) := by
          rw [hbuf]
          rintro ⟨g1, g2⟩
          by_cases hd : hasDataBuffer op.1.tag op.2 = true
          · rw [if_pos hd, Option.bind_some] at g2
            refine h.present op.1 (hb _ ?_) g2
            unfold stateBuffer
            rw [if_pos (by omega), if_neg, if_pos hd]
            rintro ⟨w, hs⟩
            unfold hasDataBuffer at hd
            simp only [w] at hd
            have hd' : op.2 = kString := by simpa using hd
            rw [hd'] at hs
            simp [kString, kSubStart, kSubEnd] at hs
          · rw [if_neg hd] at g1; exact g1 rfl
        refine ⟨?_, by rw [he]⟩
        unfold setCallbackType
        simp only [d1, hn]
        rw [if_neg htag2, hm]
        generalize hfi : fieldIncluded m d.skipped (d.stack.map (·.2)).reverse d.nodes (nodes0 d.node) = incl at *
        rw [if_neg (fun hh => hbufs hh.2)]
        congr 2
        funext i
        split
        · unfold resolve
          rw [if_neg htag2]
          by_cases hg : kindOf op = .groupStart
          · have f2 := f2 hg
            rw [hon] at f2
            have hne := hinc (Or.inr hg)
            have hw := kind_wire.1.1 hg
            have hw' : wireType (nodes0 d.node).tag = 3 := by rw [htag]; exact hw
            have hbn : (nodes0 d.node).buf = none := by rw [hbuf]; simp [hasDataBuffer, hw]
            have hcb : ∀ x : Included, x ≠ .no → callbackType x (nodes0 d.node).tag (nodes0 d.node).subtype
                (nodes0 d.node).tagLen true = .startGroup (nodes0 d.node).tagLen := by
              intro x hx; unfold callbackType; cases x <;> simp_all
            by_cases hno : incl = .no
            · rw [hno, f2.1 hno]
            · have hno2 : inc op ≠ .no := fun hh => hno (f2.2 hh)
              rw [hcb _ hno, hcb _ hno2]
              simp [hbn, hw']
          · rw [f1 hg, hon]
        · rfl
    refine ⟨d1, ?_, ?_, ?_, rfl, rfl, rfl, rfl⟩
    · unfold handleNode
      rw [hn, hset.2, if_pos rfl, hset.1]
    · refine ⟨?_, h.present, h.bufs, h.lens, h.dest, h.limits, h.skipped, h.stack, h.tags⟩
      intro p
      by_cases hp : p = d.node
      · right
        subst hp
        exact ⟨op, hop, by omega, by simp only [d1, if_true]⟩
      · rcases h.node p with g | ⟨o, g1, g2, g3⟩
        · left; simp only [d1, hp, if_false]; exact g
        · right; exact ⟨o, g1, g2, by simp only [d1, hp, if_false]; exact g3⟩
    · simp only [d1, if_true]
  · rw [hop] at hop'
    cases hop'
    refine ⟨d, ?_, h, hn, rfl, rfl, rfl, rfl⟩
    unfold handleNode
    rw [if_neg (by rw [hn]; exact resolve_ne_select _ _)]

theorem write_stack {s s' : DSt} {x : Bytes} (h : s.write env x = some s') : s'.stack = s.stack := by
  unfold DSt.write at h
  split at h
  · cases h; rfl
  · cases h

theorem read_stack {s s' : DSt} {i : Option Nat} {n : Nat} {x : Bytes} (h : s.read i n = some (x, s')) : s'.stack = s.stack := by
  unfold DSt.read at h
  repeat' split at h
  all_goals first | (cases h; done) | (cases h; rfl)

theorem messageStart_stack {s s' : DSt} (h : messageStart env s = some s') : s'.stack = s.stack := by
  unfold messageStart at h
  repeat' split at h
  all_goals first | (cases h; done) | (cases h; rfl)

/-- Callbacks of tags without nesting do not change the stack. -/
theorem callback_stack {s s' : DSt} (h : callback env s = some s')
    (hc : ∀ n, (s.nodes s.node).cb ≠ .submessageEnd ∧ (s.nodes s.node).cb ≠ .submessageStart ∧
      (s.nodes s.node).cb ≠ .startGroup n ∧ (s.nodes s.node).cb ≠ .endGroup n) : s'.stack = s.stack := by
  unfold callback at h
  simp only at h
  repeat' split at h
  all_goals first
    | (cases h; done)
    | (cases h; rfl)
    | exact write_stack h
    | exact messageStart_stack h
    | (rename_i hx; exact absurd hx (hc 0).1)
    | (rename_i hx; exact absurd hx (hc 0).2.1)
    | (rename_i hx _ _; exact absurd hx (hc 0).2.1)
    | skip
  all_goals simp_all
  all_goals first
    | (rename_i h1; rw [write_stack h, read_stack h1])
    | (rename_i h1 h2; rw [write_stack h, write_stack h2, read_stack h1])
    | (rename_i h1 _ _ _ h2 _ _ h3; rw [messageStart_stack h, write_stack h3, read_stack h2, read_stack h1])

/-- Handling a tag by the effect it has without projection. -/
theorem via_rel {r : ASt} {op : NodeId × Nat} (h : RelP keys env nodes0 opAt inc keep d a)
    (hn : IsNode keys (some op) (d.nodes d.node)) (hwf : OpWF op)
    (hb : ∀ id, stateBuffer op.1 op.2 = some id → id ∈ keys)
    (hlb : op.1.tag = 0 → op.1.parent = kNonProto → env.lensBuf ≠ none) (hkeep : keep op.1) (h0 : a.skipped = 0)
    (hc : ∀ n, (d.nodes d.node).cb ≠ .submessageEnd ∧ (d.nodes d.node).cb ≠ .submessageStart ∧
      (d.nodes d.node).cb ≠ .startGroup n ∧ (d.nodes d.node).cb ≠ .endGroup n) (hse : (d.nodes d.node).cb ≠ .select)
    (ha : aop op a.toA = some r) (hsz : r.dest.length ≤ env.maxSize) (hnr : r.limits.length ≤ env.numRecords) :
    ∃ d', handleNode env d = some d' ∧ RelP keys env nodes0 opAt inc keep d' (r.toP 0) ∧
      d'.node = d.node ∧ d'.iters = d.iters ∧ d'.trans = d.trans := by
  classical
  let data' : NodeId → Bytes := fun j => if keep j then a.data j else (d.bufs (keys.idxOf j)).getD []
  have hstk : ∀ l : List (Nat × Nat), l.map (fun x => (x.1, (d.nodes x.2).tag)) = l.map (fun x => (x.1, (nodes0 x.2).tag)) := by
    intro l
    apply List.map_congr_left
    intro x _
    rw [(h.fields x.2).1]
  have hrel : Rel keys env d.nodes d ⟨data', a.lens, a.dest, a.limits, a.stack⟩ := by
    refine ⟨rfl, ?_, h.lens, h.dest, h.limits, by rw [h.skipped, h0], by rw [hstk]; exact h.stack,
      fun x hx => (h.tagOk (h.tags x hx)).take⟩
    intro id hid
    by_cases hk : keep id
    · simp only [data', hk, if_true]; exact h.bufs id hid hk
    · simp only [data', hk, if_false]
      obtain ⟨b, hb⟩ := Option.ne_none_iff_exists'.1 (h.present id hid)
      rw [hb]; rfl
  have hcg := aop_congr (data' := data') (by simp only [data', hkeep, if_true]) ha
  obtain ⟨d', e1, e2, e3⟩ := handleNode_rel hrel hn hwf hb hlb hcg.2 hsz hnr
  refine ⟨d', e1, ?_, e3⟩
  have hst' : d'.stack = d.stack := by
    unfold handleNode at e1
    rw [if_neg hse] at e1
    exact callback_stack e1 hc
  refine ⟨by rw [e2.same]; exact h.node, ?_, ?_, e2.lens, e2.dest, e2.limits, e2.skipped, ?_, by rw [hst']; exact h.tags⟩
  · intro id hid
    rw [e2.bufs id hid]; simp
  · intro id hid hk
    rw [e2.bufs id hid]
    simp only [setData]
    by_cases hj : id = op.1
    · subst hj; simp [ASt.toP]
    · rw [if_neg hj]
      simp only [data', hk, if_true, ASt.toP]
      rw [hcg.1 id hj]
  · show r.stack = _
    have := e2.stack
    simp only at this
    rw [this, hstk]

/-- Handling the node of a tag has the effect of the tag. -/
theorem handleNode_proj {m : List IncField} {op : NodeId × Nat} {a' : PSt} (h : RelP keys env nodes0 opAt inc keep d a)
    (hsel : IsSel keys (some op) (nodes0 d.node)) (hop : opAt d.node = some op) (hwf : OpWF op)
    (hb : ∀ id, stateBuffer op.1 op.2 = some id → id ∈ keys)
    (hlb : op.1.tag = 0 → op.1.parent = kNonProto → env.lensBuf ≠ none) (hm : env.proj = m)
    (hk0 : op.1.tag = 0 → keep op.1) (hky : inc op = .yes → kindOf op = .leaf → keep op.1)
    (hinc : kindOf op = .subStart ∨ kindOf op = .groupStart → inc op ≠ .existence)
    (hpop : pop m inc op a = some a') (hsz : a'.dest.length ≤ env.maxSize) (hnr : a'.limits.length ≤ env.numRecords) :
    ∃ d', handleNode env d = some d' ∧ RelP keys env nodes0 opAt inc keep d' a' ∧
      d'.node = d.node ∧ d'.iters = d.iters ∧ d'.trans = d.trans := by
  unfold pop at hpop
  by_cases h0 : op.1.tag = 0
  · -- records
    rw [if_pos h0] at hpop
    split at hpop
    · cases hpop
    rename_i hs0
    simp only [ne_eq, Decidable.not_not] at hs0
    cases ha : aop op a.toA with
    | none => rw [ha] at hpop; cases hpop
    | some r =>
      rw [ha] at hpop
      simp only [Option.map_some, Option.some.injEq, hs0] at hpop
      subst hpop
      have hn : d.nodes d.node = nodes0 d.node := by
        rcases h.node d.node with g | ⟨o, g1, g2, _⟩
        · exact g
        · rw [hop] at g1; cases g1; exact absurd h0 g2
      have hnode : IsNode keys (some op) (d.nodes d.node) ∧
          ((d.nodes d.node).cb = .nonProto ∨ (d.nodes d.node).cb = .messageStart) := by
        rw [hn]
        obtain ⟨imp, next, hh⟩ := hsel
        obtain ⟨id, sub⟩ := op
        simp only at h0
        by_cases hp : id.parent = kNonProto
        · have e : sel (nodeOf keys (some (id, sub))) = nodeOf keys (some (id, sub)) := by
            unfold sel nodeOf; simp only [h0, hp, if_true]; simp
          rw [hh, e]
          refine ⟨⟨imp, next, rfl⟩, Or.inl ?_⟩
          unfold nodeOf; simp only [h0, hp, if_true]
        · have e : sel (nodeOf keys (some (id, sub))) = nodeOf keys (some (id, sub)) := by
            unfold sel nodeOf; simp only [h0, hp, if_true, if_false]; simp
          rw [hh, e]
          refine ⟨⟨imp, next, rfl⟩, Or.inr ?_⟩
          unfold nodeOf; simp only [h0, hp, if_true, if_false]
      refine via_rel h hnode.1 hwf hb hlb (hk0 h0) hs0 ?_ ?_ ha hsz hnr
      · intro n
        rcases hnode.2 with g | g <;> rw [g] <;> simp
      · rcases hnode.2 with g | g <;> rw [g] <;> simp
  · rw [if_neg h0] at hpop
    split at hpop
    · cases hpop
    rename_i hon
    simp only [ne_eq, Decidable.not_not] at hon
    obtain ⟨h8, h32, hw5, hs0, hs2, hsx⟩ : 8 ≤ op.1.tag ∧ op.1.tag < 2 ^ 32 ∧ wireType op.1.tag ≤ 5 ∧ _ := by
      rcases hwf with hh | hh
      · exact absurd hh.1 h0
      · exact hh
    obtain ⟨d1, e1, h1, hn1, g1, g2, g3, g4⟩ := resolve_step h hsel hop h8 h32 hb hm hon hinc
    have hfin : ∀ {a'}, (∃ d', callback env d1 = some d' ∧ RelP keys env nodes0 opAt inc keep d' a' ∧ d'.node = d1.node ∧
        d'.iters = d1.iters ∧ d'.trans = d1.trans) →
        ∃ d', handleNode env d = some d' ∧ RelP keys env nodes0 opAt inc keep d' a' ∧ d'.node = d.node ∧
          d'.iters = d.iters ∧ d'.trans = d.trans := by
      rintro a' ⟨d', f1, f2, f3, f4, f5⟩
      exact ⟨d', e1.trans f1, f2, f3.trans g1, f4.trans g2, f5.trans g3⟩
    have hskend : (d1.nodes d1.node).cb = .skippedEnd → ∃ d', callback env d1 = some d' ∧
        RelP keys env nodes0 opAt inc keep d' { a with skipped := a.skipped + 1 } ∧ d'.node = d1.node ∧
        d'.iters = d1.iters ∧ d'.trans = d1.trans := by
      intro hc
      unfold callback
      simp only [hc]
      exact ⟨_, rfl, ⟨h1.node, h1.present, h1.bufs, h1.lens, h1.dest, h1.limits, by simp [h1.skipped], h1.stack, h1.tags⟩,
        rfl, rfl, rfl⟩
    have hskst : (d1.nodes d1.node).cb = .skippedStart → a.skipped ≠ 0 → ∃ d', callback env d1 = some d' ∧
        RelP keys env nodes0 opAt inc keep d' { a with skipped := a.skipped - 1 } ∧ d'.node = d1.node ∧
        d'.iters = d1.iters ∧ d'.trans = d1.trans := by
      intro hc hs
      unfold callback
      simp only [hc]
      rw [if_neg (by rw [h1.skipped]; exact hs)]
      exact ⟨_, rfl, ⟨h1.node, h1.present, h1.bufs, h1.lens, h1.dest, h1.limits, by simp [h1.skipped], h1.stack, h1.tags⟩,
        rfl, rfl, rfl⟩
    unfold pstep at hpop
    by_cases hks : kindOf op = .subStart
    · -- start of a submessage
      obtain ⟨imp, next, he⟩ := isSel_start hsel h8 hks
      have hcb : (d1.nodes d1.node).cb = if inc op = .no then .skippedStart else .submessageStart := by
        rw [hn1, he]; unfold resolve; rw [if_pos rfl]
      rw [hks] at hpop
      simp only at hpop
      split at hpop
      · rename_i hno
        split at hpop
        · cases hpop
        rename_i hs
        cases hpop
        rw [if_pos hno] at hcb
        exact hfin (hskst hcb hs)
      · rename_i hno
        rw [if_neg hno] at hcb
        cases hst : d1.stack with
        | nil =>
          have := h1.stack
          rw [hst] at this
          rw [this] at hpop
          cases hpop
        | cons x stack =>
          have hstk := h1.stack
          rw [hst, List.map_cons] at hstk
          rw [hstk] at hpop
          simp only at hpop
          split at hpop
          · cases hpop
          rename_i hl
          cases hpop
          apply hfin
          unfold callback
          simp only [hcb, hst, h1.dest, if_neg hl]
          have htk := h1.tags x (by rw [hst]; exact List.mem_cons_self)
          rw [(h1.tagOk htk).take, (h1.fields x.2).1]
          have h2 : RelP keys env nodes0 opAt inc keep { d1 with stack := stack }
              { a with stack := stack.map (fun x => (x.1, (nodes0 x.2).tag)) } :=
            ⟨h1.node, h1.present, h1.bufs, h1.lens, h1.dest, h1.limits, h1.skipped, rfl,
              fun y hy => h1.tags y (by rw [hst]; exact List.mem_cons_of_mem _ hy)⟩
          obtain ⟨d2, f1, f2, f3⟩ := h2.write (x := writeVarint (nodes0 x.2).tag ++ writeVarint (a.dest.length - x.1))
            (by simpa [Nat.add_assoc] using hsz)
          refine ⟨d2, ?_, f2, f3⟩
          rw [← f1]
          simp [h1.dest]
    · obtain ⟨imp, next, he⟩ := isSel_field hsel h8 hks
      have hto : TagOk (nodes0 d.node) := by rw [he]; exact ⟨_, rfl, rfl, h32⟩
      have hres : d1.nodes d1.node = ⟨op.1.tag, op.2,
          if inc op = .existence ∧ wireType op.1.tag = 0 then (writeVarint op.1.tag) ++ [0]
          else writeVarint op.1.tag ++ [if wireType op.1.tag = 0 ∧ op.2 ≥ kVarintInline0 then UInt8.ofNat (op.2 - kVarintInline0) else 0],
          (writeVarint op.1.tag).length, imp, callbackType (inc op) op.1.tag op.2 (writeVarint op.1.tag).length true,
          if inc op = .yes then (if hasDataBuffer op.1.tag op.2 then some (keys.idxOf op.1) else none) else none, next⟩ := by
        rw [hn1, he]
        unfold resolve
        simp only
        rw [if_neg (by rw [kStartOfSubmessage]; omega), List.take_left]
      have htake : (d1.nodes d1.node).tagData.take (writeVarint op.1.tag).length = writeVarint op.1.tag := by
        rw [hres]; simp only; split <;> rw [List.take_left]
      have hcb : (d1.nodes d1.node).cb = callbackType (inc op) op.1.tag op.2 (writeVarint op.1.tag).length true := by
        rw [hres]
      have hwrite : ∀ {x a1} {dd : DSt}, RelP keys env nodes0 opAt inc keep dd a1 → x.length + a1.dest.length ≤ env.maxSize →
          dd.node = d1.node → dd.iters = d1.iters → dd.trans = d1.trans →
          ∃ d', dd.write env x = some d' ∧ RelP keys env nodes0 opAt inc keep d' { a1 with dest := x ++ a1.dest } ∧
            d'.node = d1.node ∧ d'.iters = d1.iters ∧ d'.trans = d1.trans := by
        intro x a1 dd hr hl z1 z2 z3
        obtain ⟨d', f1, f2, f3, f4, f5⟩ := hr.write hl
        exact ⟨d', f1, f2, f3.trans z1, f4.trans z2, f5.trans z3⟩
      have hpush : RelP keys env nodes0 opAt inc keep { d1 with stack := (d1.dest.length, d1.node) :: d1.stack }
          { a with stack := (a.dest.length, op.1.tag) :: a.stack } := by
        refine ⟨h1.node, h1.present, h1.bufs, h1.lens, h1.dest, h1.limits, h1.skipped, ?_, ?_⟩
        · simp only [List.map_cons, h1.dest, g1, ← h1.stack, he]
        · intro x hx
          rcases List.mem_cons.1 hx with rfl | hx
          · simp only [g1]; exact hto
          · exact h1.tags x hx
      cases hk : kindOf op with
      | subStart => exact absurd hk hks
      | subEnd =>
        obtain ⟨hw, hn1', hn2'⟩ := kind_wire.2.2.2.1 hk
        have hse : op.2 = kSubEnd := by
          have := hs2 hw
          simp only [kString, kSubStart, kSubEnd] at *
          omega
        rw [hk] at hpop
        simp only at hpop
        split at hpop
        · rename_i hno
          cases hpop
          apply hfin
          apply hskend
          rw [hcb, hno]; simp [callbackType, hw, hse, kString, kSubEnd]
        · rename_i hno
          cases hpop
          apply hfin
          have hcb' : (d1.nodes d1.node).cb = .submessageEnd := by
            rw [hcb]
            cases hi : inc op with
            | no => exact absurd hi hno
            | yes => simp [callbackType, hw, hse, kString, kSubEnd]
            | existence => simp [callbackType, hw, hse, kString, kSubEnd]
          unfold callback
          simp only [hcb']
          exact ⟨_, rfl, hpush, rfl, rfl, rfl⟩
      | groupEnd =>
        have hw := kind_wire.2.1.1 hk
        rw [hk] at hpop
        simp only at hpop
        split at hpop
        · rename_i hno
          cases hpop
          apply hfin
          apply hskend
          rw [hcb, hno]; simp [callbackType, hw]
        · rename_i hno
          cases hpop
          apply hfin
          have hcb' : (d1.nodes d1.node).cb = .endGroup (writeVarint op.1.tag).length := by
            rw [hcb]
            cases hi : inc op with
            | no => exact absurd hi hno
            | yes => simp [callbackType, hw]
            | existence => simp [callbackType, hw]
          unfold callback
          simp only [hcb', htake]
          exact hwrite hpush (by simpa using hsz) rfl rfl rfl
      | groupStart =>
        have hw := kind_wire.1.1 hk
        rw [hk] at hpop
        simp only at hpop
        split at hpop
        · rename_i hno
          split at hpop
          · cases hpop
          rename_i hs
          cases hpop
          apply hfin
          apply hskst _ hs
          rw [hcb, hno]; simp [callbackType, hw]
        · rename_i hno
          have hcb' : (d1.nodes d1.node).cb = .startGroup (writeVarint op.1.tag).length := by
            rw [hcb]
            cases hi : inc op with
            | no => exact absurd hi hno
            | yes => simp [callbackType, hw]
            | existence => simp [callbackType, hw]
          cases hst : d1.stack with
          | nil =>
            have := h1.stack
            rw [hst] at this
            rw [this] at hpop
            cases hpop
          | cons x stack =>
            have hstk := h1.stack
            rw [hst, List.map_cons] at hstk
            rw [hstk] at hpop
            simp only at hpop
            cases hpop
            apply hfin
            unfold callback
            simp only [hcb', hst, htake]
            have h2 : RelP keys env nodes0 opAt inc keep { d1 with stack := stack }
                { a with stack := stack.map (fun x => (x.1, (nodes0 x.2).tag)) } :=
              ⟨h1.node, h1.present, h1.bufs, h1.lens, h1.dest, h1.limits, h1.skipped, rfl,
                fun y hy => h1.tags y (by rw [hst]; exact List.mem_cons_of_mem _ hy)⟩
            exact hwrite h2 (by simpa using hsz) rfl rfl rfl
      | leaf =>
        rw [hk] at hpop
        have hw : wireType op.1.tag = 0 ∨ wireType op.1.tag = 1 ∨ wireType op.1.tag = 5 ∨
            (wireType op.1.tag = 2 ∧ op.2 = kString) := by
          unfold kindOf at hk
          repeat' split at hk
          all_goals first | (cases hk; done) | skip
          · right; right; right; exact ⟨by assumption, by assumption⟩
          · omega
        cases hi : inc op with
        | no =>
          rw [hi] at hpop
          simp only at hpop
          cases hpop
          apply hfin
          have hcb' : (d1.nodes d1.node).cb = .noOp := by
            rw [hcb, hi]
            rcases hw with hw | hw | hw | ⟨hw, hs⟩ <;> simp [callbackType, hw]
            exact fun hh => absurd hs hh
          unfold callback
          simp only [hcb']
          exact ⟨_, rfl, h1, rfl, rfl, rfl⟩
        | existence =>
          rw [hi] at hpop
          simp only at hpop
          cases hpop
          apply hfin
          have hlen : (writeVarint op.1.tag ++ cleared op.1.tag).length + a.dest.length ≤ env.maxSize := by
            simpa [Nat.add_assoc] using hsz
          have hres2 : callback env d1 = d1.write env (writeVarint op.1.tag ++ cleared op.1.tag) := by
            have hcopy : ∀ k, (d1.nodes d1.node).cb = .copyTag k →
                callback env d1 = d1.write env ((d1.nodes d1.node).tagData.take k) := by
              intro k hc
              unfold callback
              simp only [hc]
            have hfix : ∀ k, (d1.nodes d1.node).cb = .fixedExistence k (writeVarint op.1.tag).length →
                callback env d1 = d1.write env (writeVarint op.1.tag ++ List.replicate k 0) := by
              intro k hc
              unfold callback
              simp only [hc, htake]
            rcases hw with hw | hw | hw | ⟨hw, hs⟩
            · rw [hcopy ((writeVarint op.1.tag).length + 1) (by rw [hcb, hi]; simp [callbackType, hw]), hres]
              simp only [hi, hw, and_self, if_true]
              rw [List.take_of_length_le (by simp)]
              simp [cleared, hw]
            · rw [hfix 8 (by rw [hcb, hi]; simp [callbackType, hw])]
              simp [cleared, hw]
            · rw [hfix 4 (by rw [hcb, hi]; simp [callbackType, hw])]
              simp [cleared, hw]
            · rw [hcopy ((writeVarint op.1.tag).length + 1) (by rw [hcb, hi]; simp [callbackType, hw, hs]), hres]
              simp only [hi, hw, Nat.reduceEqDiff, and_false, false_and, if_false]
              rw [List.take_of_length_le (by simp)]
              simp [cleared, hw]
          rw [hres2]
          have := hwrite h1 hlen rfl rfl rfl
          simpa [List.append_assoc] using this
        | yes =>
          rw [hi] at hpop
          simp only at hpop
          have hsk : a.skipped = 0 := by
            rw [hi] at hon
            unfold online at hon
            split at hon
            · cases hon
            · omega
          cases ha : aop op a.toA with
          | none => rw [ha] at hpop; cases hpop
          | some r =>
            rw [ha] at hpop
            simp only [Option.map_some, Option.some.injEq, hsk] at hpop
            subst hpop
            have hcbeq : callbackType (inc op) op.1.tag op.2 (writeVarint op.1.tag).length true =
                callbackType .yes op.1.tag op.2 (writeVarint op.1.tag).length false := by
              rw [hi]
              rcases hw with hw | hw | hw | ⟨hw, hs⟩ <;> simp [callbackType, hw]
            have hcbk : ∀ n, (d1.nodes d1.node).cb ≠ .submessageEnd ∧ (d1.nodes d1.node).cb ≠ .submessageStart ∧
                (d1.nodes d1.node).cb ≠ .startGroup n ∧ (d1.nodes d1.node).cb ≠ .endGroup n := by
              intro n
              rw [hcb, hcbeq]
              rcases hw with hw | hw | hw | ⟨hw, hs⟩
              · simp only [callbackType, hw, varintCb]
                repeat' split
                all_goals simp
              · simp [callbackType, hw]
              · simp [callbackType, hw]
              · simp [callbackType, hw, hs]
            have hns : (d1.nodes d1.node).cb ≠ .select := by rw [hcb]; exact callbackType_ne_select _ _ _ _ _
            have hnode : IsNode keys (some op) (d1.nodes d1.node) := by
              refine ⟨imp, next, ?_⟩
              rw [hres, hcbeq, hi]
              obtain ⟨id, sub⟩ := op
              have hsub : ¬ (wireType id.tag = 2 ∧ sub = kSubStart) := fun hh => hks (kind_wire.2.2.1.2 hh)
              unfold nodeOf
              simp only [if_neg h0, if_neg hsub, if_true]
              simp
            obtain ⟨d', f1, f2, f3, f4, f5⟩ := via_rel h1 hnode hwf hb hlb (hky hi hk) hsk hcbk hns ha hsz hnr
            apply hfin
            refine ⟨d', ?_, f2, f3, f4, f5⟩
            unfold handleNode at f1
            rw [if_neg hns] at f1
            exact f1

end

theorem pop_mono {m : List IncField} {inc : NodeId × Nat → Included} {op : NodeId × Nat} {a a' : PSt}
    (h : pop m inc op a = some a') : a.dest.length ≤ a'.dest.length ∧ a.limits.length ≤ a'.limits.length := by
  have key : ∀ k, (aop op a.toA).map (·.toP k) = some a' →
      a.dest.length ≤ a'.dest.length ∧ a.limits.length ≤ a'.limits.length := by
    intro k hk
    cases ha : aop op a.toA with
    | none => rw [ha] at hk; cases hk
    | some r =>
      rw [ha] at hk
      cases hk
      exact aop_mono ha
  unfold pop at h
  split at h
  · split at h
    · cases h
    · exact key _ h
  · split at h
    · cases h
    · unfold pstep at h
      repeat' split at h
      all_goals first
        | (cases h; done)
        | exact key _ h
        | (cases h; constructor <;> simp <;> omega)

theorem prun_mono {m : List IncField} {inc : NodeId × Nat → Included} : ∀ {ops : List (NodeId × Nat)} {a a' : PSt},
    prun m inc ops a = some a' → a.dest.length ≤ a'.dest.length ∧ a.limits.length ≤ a'.limits.length
  | [], a, a', h => by cases h; exact ⟨Nat.le_refl _, Nat.le_refl _⟩
  | op :: ops, a, a', h => by
    simp only [prun] at h
    cases h1 : pop m inc op a with
    | none => simp [h1] at h
    | some b =>
      simp only [h1, Option.bind_some] at h
      have e1 := pop_mono h1
      have e2 := prun_mono h
      omega

/-- Moving to the next node does not change the rest. -/
theorem RelP.move {keys : List NodeId} {env : Env} {nodes0 : Nat → Node} {opAt : Nat → Option (NodeId × Nat)}
    {inc : NodeId × Nat → Included} {keep : NodeId → Prop} {d d' : DSt} {a : PSt}
    (h : RelP keys env nodes0 opAt inc keep d a)
    (hd : ∃ n i t, d' = { d with node := n, iters := i, trans := t }) : RelP keys env nodes0 opAt inc keep d' a := by
  obtain ⟨n, i, t, rfl⟩ := hd
  exact ⟨h.node, h.present, h.bufs, h.lens, h.dest, h.limits, h.skipped, h.stack, h.tags⟩

/-- The loop of the decoder with projection follows the path. -/
theorem decodeLoop_proj {keys : List NodeId} {env : Env} {nodes : Nat → Node} {opAt : Nat → Option (NodeId × Nat)}
    {inc : NodeId × Nat → Included} {keep : NodeId → Prop} {m : List IncField} (hm : env.proj = m)
    {n : Nat} {offs ps : List Nat} (hp : Path nodes n offs ps)
    (hnode : ∀ p ∈ ps, IsSel keys (opAt p) (nodes p))
    (hops : ∀ p ∈ ps, ∀ op, opAt p = some op → OpWF op ∧ (∀ id, stateBuffer op.1 op.2 = some id → id ∈ keys) ∧
      (op.1.tag = 0 → op.1.parent = kNonProto → env.lensBuf ≠ none) ∧
      (op.1.tag = 0 → keep op.1) ∧ (inc op = .yes → kindOf op = .leaf → keep op.1) ∧
      (kindOf op = .subStart ∨ kindOf op = .groupStart → inc op ≠ .existence)) :
    ∀ {d : DSt} {a a' : PSt}, d.node = n → ((nodes n).implicit = true → 1 ≤ d.iters) → pending nodes d = offs →
    RelP keys env nodes opAt inc keep d a → prun m inc (ps.filterMap opAt) a = some a' → a'.dest.length ≤ env.maxSize →
    a'.limits.length ≤ env.numRecords →
    ∃ d', decodeLoop env d = some (some d') ∧ RelP keys env nodes opAt inc keep d' a' := by
  have hhandle : ∀ p, IsSel keys (opAt p) (nodes p) → (∀ op, opAt p = some op → OpWF op ∧
      (∀ id, stateBuffer op.1 op.2 = some id → id ∈ keys) ∧
      (op.1.tag = 0 → op.1.parent = kNonProto → env.lensBuf ≠ none) ∧
      (op.1.tag = 0 → keep op.1) ∧ (inc op = .yes → kindOf op = .leaf → keep op.1) ∧
      (kindOf op = .subStart ∨ kindOf op = .groupStart → inc op ≠ .existence)) →
      ∀ (rest : List Nat) {d : DSt} {a a' : PSt}, d.node = p → RelP keys env nodes opAt inc keep d a →
      prun m inc ((p :: rest).filterMap opAt) a = some a' → a'.dest.length ≤ env.maxSize →
      a'.limits.length ≤ env.numRecords →
      ∃ d1 a1, handleNode env d = some d1 ∧ RelP keys env nodes opAt inc keep d1 a1 ∧
        prun m inc (rest.filterMap opAt) a1 = some a' ∧
        d1.node = d.node ∧ d1.iters = d.iters ∧ d1.trans = d.trans := by
    intro p hn ho rest d a a' hd hr hrun hsz hnr
    cases hop : opAt p with
    | none =>
      simp only [List.filterMap_cons, hop] at hrun
      rw [hop] at hn
      obtain ⟨imp, next, hn⟩ := hn
      refine ⟨d, a, ?_, hr, hrun, rfl, rfl, rfl⟩
      have hcb : (d.nodes d.node).cb = .noOp := by
        rcases hr.node d.node with g | ⟨o, g1, _⟩
        · rw [g, hd, hn]; rfl
        · rw [hd, hop] at g1; cases g1
      unfold handleNode
      rw [hcb, if_neg (by simp)]
      unfold callback
      simp only [hcb]
    | some op =>
      simp only [List.filterMap_cons, hop, prun] at hrun
      cases ha : pop m inc op a with
      | none => simp [ha] at hrun
      | some a1 =>
        simp only [ha, Option.bind_some] at hrun
        have hmn := prun_mono hrun
        rw [hop] at hn
        obtain ⟨w1, w2, w3, w4, w5, w6⟩ := ho op hop
        subst hd
        obtain ⟨d1, e1, e2, e3⟩ := handleNode_proj hr hn hop w1 w2 w3 hm w4 w5 w6 ha (by omega) (by omega)
        exact ⟨d1, a1, e1, e2, hrun, e3⟩
  induction hp with
  | @done n hi =>
    intro d a a' hd _ hpend hr hrun hsz hnr
    obtain ⟨d1, a1, e1, e2, e3, e4, e5, e6⟩ := hhandle n (hnode n (by simp)) (hops n (by simp)) [] hd hr hrun hsz hnr
    cases e3
    refine ⟨d1, ?_, e2⟩
    rw [decodeLoop, e1]
    simp only
    have hp' : d.iters = 0 ∧ d.trans = [] := by
      unfold pending at hpend
      rw [hd, hi] at hpend
      simp only [Bool.false_eq_true, if_false, Nat.sub_zero, List.append_eq_nil_iff, List.replicate_eq_nil_iff] at hpend
      refine ⟨hpend.1, ?_⟩
      cases ht : d.trans with
      | nil => rfl
      | cons b t => rw [ht] at hpend; simp [expand, expandByte] at hpend
    have ht : transitionNode d1 = none := by
      unfold transitionNode
      simp [e5, e6, hp'.1, hp'.2]
    rw [ht]
  | @implicit n offs ps hi hp ih =>
    intro d a a' hd hit hpend hr hrun hsz hnr
    obtain ⟨d1, a1, e1, e2, e3, e4, e5, e6⟩ := hhandle n (hnode n (by simp)) (hops n (by simp)) ps hd hr hrun hsz hnr
    have hit := hit hi
    have hd1 : (d1.nodes d1.node).next = (nodes n).next := by rw [e4, hd]; exact (e2.fields n).2.2.2.2
    have ht : transitionNode d1 = some { d1 with node := (nodes n).next
                                                 iters := d.iters - if (nodes (nodes n).next).implicit then 0 else 1 } := by
      unfold transitionNode
      simp only [hd1, e5, (e2.fields _).2.2.2.1]
      rw [if_neg (by omega)]
    have hr1 : RelP keys env nodes opAt inc keep { d1 with node := (nodes n).next
                                                           iters := d.iters - if (nodes (nodes n).next).implicit then 0 else 1 } a1 :=
      e2.move ⟨_, _, d1.trans, rfl⟩
    obtain ⟨d', f1, f2⟩ := ih (fun p hp => hnode p (List.mem_cons_of_mem _ hp))
      (fun p hp => hops p (List.mem_cons_of_mem _ hp)) rfl (by simp only; intro h; rw [if_pos h]; omega)
      (by
        rw [← hpend]; unfold pending; simp only [hd, hi, if_true, e6]
        congr 2
        split <;> simp_all) hr1 e3 hsz hnr
    refine ⟨d', ?_, f2⟩
    rw [decodeLoop, e1]
    simp only [ht]
    exact f1
  | @step n o offs ps hi hp ih =>
    intro d a a' hd hit hpend hr hrun hsz hnr
    obtain ⟨d1, a1, e1, e2, e3, e4, e5, e6⟩ := hhandle n (hnode n (by simp)) (hops n (by simp)) ps hd hr hrun hsz hnr
    have hd1 : (d1.nodes d1.node).next = (nodes n).next := by rw [e4, hd]; exact (e2.fields n).2.2.2.2
    unfold pending at hpend
    simp only [hd, hi, Bool.false_eq_true, if_false, Nat.sub_zero] at hpend
    cases hk : d.iters with
    | zero =>
      cases htr : d.trans with
      | nil => rw [hk, htr] at hpend; simp [expand] at hpend
      | cons b t =>
        rw [hk, htr] at hpend
        simp only [List.replicate_zero, List.nil_append, expand, List.flatMap_cons, expandByte, List.cons_append,
          List.cons.injEq] at hpend
        obtain ⟨ho, hoffs⟩ := hpend
        have ht : transitionNode d1 = some { d1 with
            node := (nodes n).next + o, trans := t
            iters := b.toNat % 4 + if (nodes ((nodes n).next + o)).implicit then 1 else 0 } := by
          unfold transitionNode
          simp only [hd1, e5, e6, (e2.fields _).2.2.2.1, hk, htr, ho, if_true]
        have hr1 : RelP keys env nodes opAt inc keep { d1 with
            node := (nodes n).next + o, trans := t
            iters := b.toNat % 4 + if (nodes ((nodes n).next + o)).implicit then 1 else 0 } a1 := e2.move ⟨_, _, t, rfl⟩
        obtain ⟨d', f1, f2⟩ := ih (fun p hp => hnode p (List.mem_cons_of_mem _ hp))
          (fun p hp => hops p (List.mem_cons_of_mem _ hp)) rfl (by simp only; intro h; rw [if_pos h]; omega)
          (by unfold pending; simp only [Nat.add_sub_cancel]; exact hoffs) hr1 e3 hsz hnr
        refine ⟨d', ?_, f2⟩
        rw [decodeLoop, e1]
        simp only [ht]
        exact f1
    | succ k =>
      rw [hk] at hpend
      simp only [List.replicate_succ, List.cons_append, List.cons.injEq] at hpend
      obtain ⟨ho, hoffs⟩ := hpend
      subst ho
      have ht : transitionNode d1 = some { d1 with
          node := (nodes n).next + 0
          iters := k + 1 - if (nodes ((nodes n).next + 0)).implicit then 0 else 1 } := by
        unfold transitionNode
        simp only [hd1, e5, (e2.fields _).2.2.2.1, hk]
        rw [if_neg (by omega)]
        rfl
      have hr1 : RelP keys env nodes opAt inc keep { d1 with
          node := (nodes n).next + 0
          iters := k + 1 - if (nodes ((nodes n).next + 0)).implicit then 0 else 1 } a1 := e2.move ⟨_, _, d1.trans, rfl⟩
      obtain ⟨d', f1, f2⟩ := ih (fun p hp => hnode p (List.mem_cons_of_mem _ hp))
        (fun p hp => hops p (List.mem_cons_of_mem _ hp)) rfl (by simp only; intro h; rw [if_pos h]; omega)
        (by
          rw [← hoffs]; unfold pending; simp only [e6]
          congr 2
          split <;> simp_all) hr1 e3 hsz hnr
      refine ⟨d', ?_, f2⟩
      rw [decodeLoop, e1]
      simp only [ht]
      exact f1

end Riegeli.Tr

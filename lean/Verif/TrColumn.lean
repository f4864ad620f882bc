import Verif.TrDec
/-!
# Transposed chunks: what the operations of the encoder mean to the decoder

`aop` is the effect of one decoded tag on the output and the buffers, without the state machine. Decoding the
tags in the order opposite to the order of encoding reproduces the records.
-/
namespace Riegeli.Tr

/-- Decoder state without the state machine. `data` are the remaining buffers by node. -/
structure ASt where
  data : NodeId → Bytes
  lens : Bytes
  dest : Bytes
  limits : List Nat
  stack : List (Nat × Nat)

/-- Replacing one buffer. -/
def setData (d : NodeId → Bytes) (id : NodeId) (b : Bytes) : NodeId → Bytes :=
  fun j => if j = id then b else d j

/-- The effect of a tag on the output (`transpose_decoder.cc:1135-1439`). -/
def aop (op : NodeId × Nat) (a : ASt) : Option ASt :=
  let id := op.1
  let sub := op.2
  let b := a.data id
  if id.tag = 0 then
    if id.parent = kNonProto then
      match readVarint 32 false a.lens with
      | none => none
      | some (length, rest) =>
        if b.length < length then none
        else if a.stack ≠ [] then none
        else some ⟨setData a.data id (b.drop length), rest, b.take length ++ a.dest,
          (b.take length ++ a.dest).length :: a.limits, a.stack⟩
    else if id.parent = kStartOfMessage then
      if a.stack ≠ [] then none else some { a with limits := a.dest.length :: a.limits }
    else none
  else
    match wireType id.tag with
    | 0 =>
      if kVarintInline0 ≤ sub then
        some { a with dest := writeVarint id.tag ++ [UInt8.ofNat (sub - kVarintInline0)] ++ a.dest }
      else if b.length < sub + 1 then none
      else some { a with data := setData a.data id (b.drop (sub + 1))
                         dest := writeVarint id.tag ++ maskBuffer (b.take (sub + 1)) ++ a.dest }
    | 5 =>
      if b.length < 4 then none
      else some { a with data := setData a.data id (b.drop 4)
                         dest := writeVarint id.tag ++ b.take 4 ++ a.dest }
    | 1 =>
      if b.length < 8 then none
      else some { a with data := setData a.data id (b.drop 8)
                         dest := writeVarint id.tag ++ b.take 8 ++ a.dest }
    | 2 =>
      if sub = kString then
        match readVarint 32 false b with
        | none => none
        | some (length, rest) =>
          let n := b.length - rest.length
          if length > 2 ^ 32 - 1 - n then none
          else if b.length < n + length then none
          else some { a with data := setData a.data id (b.drop (n + length))
                             dest := writeVarint id.tag ++ b.take (n + length) ++ a.dest }
      else if sub = kSubStart then
        match a.stack with
        | [] => none
        | (pos, tag) :: stack =>
          if a.dest.length - pos > 2 ^ 32 - 1 then none
          else some { a with stack := stack
                             dest := writeVarint tag ++ writeVarint (a.dest.length - pos) ++ a.dest }
      else some { a with stack := (a.dest.length, id.tag) :: a.stack }
    | 3 => some { a with dest := writeVarint id.tag ++ a.dest }
    | 4 => some { a with dest := writeVarint id.tag ++ a.dest }
    | _ => none

/-- Decoding a sequence of tags. -/
def arun : List (NodeId × Nat) → ASt → Option ASt
  | [], a => some a
  | op :: ops, a => (aop op a).bind (arun ops)

theorem arun_append (x y : List (NodeId × Nat)) : ∀ a, arun (x ++ y) a = (arun x a).bind (arun y) := by
  induction x with
  | nil => intro a; rfl
  | cons op x ih =>
    intro a
    simp only [List.cons_append, arun]
    cases aop op a with
    | none => rfl
    | some b => simp [ih]

/-! ## Buffers -/

/-- The type of buffers of a node. -/
def typeOf (id : NodeId) : BufType :=
  if id.tag = 0 then .nonProto
  else if wireType id.tag = 0 then .varint
  else if wireType id.tag = 5 then .fixed32
  else if wireType id.tag = 1 then .fixed64
  else .string

/-- Contents of the buffer of a node. -/
def lookupB : List (NodeId × Bytes) → NodeId → Bytes
  | [], _ => []
  | (k, b) :: l, id => if k = id then b else lookupB l id

/-- Contents of the buffers by node. -/
def absData (s : ESt) (id : NodeId) : Bytes := lookupB (s.data (typeOf id)) id

theorem lookupB_prependTo (id : NodeId) (d : Bytes) (l : List (NodeId × Bytes)) (j : NodeId) :
    lookupB (prependTo id d l) j = if j = id then d ++ lookupB l id else lookupB l j := by
  induction l with
  | nil =>
    simp only [prependTo, lookupB]
    by_cases h : j = id
    · simp [h]
    · simp [h, Ne.symm h]
  | cons x l ih =>
    obtain ⟨k, b⟩ := x
    simp only [prependTo]
    split
    · rename_i hk
      subst hk
      simp only [lookupB]
      by_cases h : j = k
      · simp [h]
      · simp [h, Ne.symm h]
    · rename_i hk
      simp only [lookupB, ih]
      by_cases h : j = id
      · subst h; simp [hk]
      · simp [h]

theorem prependTo_keys (id : NodeId) (d : Bytes) (l : List (NodeId × Bytes)) :
    (prependTo id d l).map (·.1) = if id ∈ l.map (·.1) then l.map (·.1) else l.map (·.1) ++ [id] := by
  induction l with
  | nil => simp [prependTo]
  | cons x l ih =>
    obtain ⟨k, b⟩ := x
    simp only [prependTo]
    split
    · rename_i hk; subst hk; simp
    · rename_i hk
      simp only [List.map_cons, ih, List.mem_cons, Ne.symm hk, false_or]
      split <;> simp

theorem absData_write (s : ESt) (t : BufType) (id : NodeId) (d : Bytes) (ht : t = typeOf id) :
    absData (s.write t id d) = setData (absData s) id (d ++ absData s id) := by
  funext j
  subst ht
  unfold absData ESt.write setData
  simp only
  by_cases hj : j = id
  · subst hj; simp [lookupB_prependTo]
  · simp only [hj, if_false]
    split
    · rename_i h; rw [lookupB_prependTo, if_neg hj, h]
    · rfl

theorem setData_setData (d : NodeId → Bytes) (id : NodeId) (x y : Bytes) :
    setData (setData d id x) id y = setData d id y := by
  funext j; unfold setData; split <;> rfl

theorem setData_self (d : NodeId → Bytes) (id : NodeId) : setData d id (d id) = d := by
  funext j; unfold setData; split
  · rename_i h; rw [h]
  · rfl

theorem setData_same (d : NodeId → Bytes) (id : NodeId) (x : Bytes) : setData d id x id = x := by
  unfold setData; simp

/-- A node with a subtype which the encoder creates. -/
def OpWF (op : NodeId × Nat) : Prop :=
  (op.1.tag = 0 ∧ (op.1.parent = kNonProto ∨ op.1.parent = kStartOfMessage) ∧ op.2 = 0) ∨
  (8 ≤ op.1.tag ∧ op.1.tag < 2 ^ 32 ∧ wireType op.1.tag ≤ 5 ∧
    (wireType op.1.tag = 0 → op.2 < kVarintInline0 + 4) ∧ (wireType op.1.tag = 2 → op.2 ≤ 2) ∧
    (wireType op.1.tag ≠ 0 → wireType op.1.tag ≠ 2 → op.2 = 0))

/-- Invariants of the encoder. -/
structure Good (s : ESt) : Prop where
  nodup : ∀ t, ((s.data t).map (·.1)).Nodup
  typed : ∀ t x, x ∈ s.data t → typeOf x.1 = t
  nonempty : ∀ t x, x ∈ s.data t → x.2 ≠ []
  wf : ∀ op ∈ s.tags, OpWF op
  buf : ∀ op ∈ s.tags, ∀ id, stateBuffer op.1 op.2 = some id → id ∈ (s.data (typeOf id)).map (·.1)
  enc : ∀ e ∈ s.enc, e < s.tags.length
  lens : (⟨kNonProto, 0⟩, 0) ∈ s.tags → s.lens ≠ []

theorem good_empty : Good ESt.empty := by
  constructor <;> simp [ESt.empty]

theorem findOrAppend_spec {α : Type} [DecidableEq α] (l : List α) (x : α) :
    l <+: (findOrAppend l x).1 ∧ (findOrAppend l x).1[(findOrAppend l x).2]? = some x ∧
    (∀ y, y ∈ (findOrAppend l x).1 ↔ y ∈ l ∨ y = x) ∧ (l.Nodup → (findOrAppend l x).1.Nodup) := by
  unfold findOrAppend
  split
  · rename_i h
    have hm : x ∈ l := List.idxOf_lt_length_iff.1 h
    refine ⟨List.prefix_refl l, ?_, ?_, id⟩
    · rw [List.getElem?_eq_getElem h]; simp
    · intro y; simp only
      constructor
      · exact Or.inl
      · rintro (h | rfl)
        · exact h
        · exact hm
  · rename_i h
    have hm : x ∉ l := fun hm => h (List.idxOf_lt_length_iff.2 hm)
    refine ⟨List.prefix_append l [x], by simp, by simp, ?_⟩
    intro hn
    rw [List.nodup_append]
    refine ⟨hn, by simp, ?_⟩
    intro a ha b hb
    simp only [List.mem_singleton] at hb
    subst hb
    exact fun h => hm (h ▸ ha)

/-- One step of encoding: a tag is pushed and `d` is written to its buffer, if it has one. -/
theorem good_pushTag {s : ESt} (hg : Good s) (id : NodeId) (sub : Nat) (hwf : OpWF (id, sub))
    (hb : stateBuffer id sub = none) : Good (s.pushTag id sub) := by
  have hf := findOrAppend_spec s.tags (id, sub)
  have hlt : (findOrAppend s.tags (id, sub)).2 < (findOrAppend s.tags (id, sub)).1.length := by
    have := hf.2.1
    rw [List.getElem?_eq_some_iff] at this
    exact this.1
  constructor
  · exact hg.nodup
  · exact hg.typed
  · exact hg.nonempty
  · intro op hop
    rcases (hf.2.2.1 op).1 hop with h | h
    · exact hg.wf op h
    · exact h ▸ hwf
  · intro op hop j hj
    rcases (hf.2.2.1 op).1 hop with h | h
    · exact hg.buf op h j hj
    · subst h; simp only [hb] at hj; cases hj
  · intro e he
    simp only [ESt.pushTag, ESt.push, ESt.getPos, List.mem_cons] at he ⊢
    rcases he with rfl | he
    · exact hlt
    · exact Nat.lt_of_lt_of_le (hg.enc e he) hf.1.length_le
  · intro hop
    rcases (hf.2.2.1 _).1 hop with h | h
    · exact hg.lens h
    · exfalso
      cases h
      simp [stateBuffer, kNonProto] at hb

theorem good_write' {s : ESt} (hg : Good s) (id : NodeId) (sub : Nat) (hwf : OpWF (id, sub)) (d : Bytes)
    (hd : d ≠ []) (t : BufType) (ht : t = typeOf id) (L : Bytes) (hL1 : s.lens ≠ [] → L ≠ [])
    (hL2 : id.tag = 0 → L ≠ []) :
    Good { (s.pushTag id sub).write t id d with lens := L } := by
  subst ht
  have hf := findOrAppend_spec s.tags (id, sub)
  have hlt : (findOrAppend s.tags (id, sub)).2 < (findOrAppend s.tags (id, sub)).1.length := by
    have := hf.2.1
    rw [List.getElem?_eq_some_iff] at this
    exact this.1
  have hmem : ∀ x, x ∈ prependTo id d (s.data (typeOf id)) →
      x ∈ s.data (typeOf id) ∨ (x.1 = id ∧ x.2 ≠ []) := by
    generalize s.data (typeOf id) = l
    intro x
    induction l with
    | nil => intro hx; simp only [prependTo, List.mem_singleton] at hx; subst hx; exact Or.inr ⟨rfl, hd⟩
    | cons y l ih =>
      obtain ⟨k, b⟩ := y
      simp only [prependTo]
      split
      · rename_i hk
        intro hx
        rcases List.mem_cons.1 hx with rfl | hx
        · exact Or.inr ⟨hk, by simp [hd]⟩
        · exact Or.inl (List.mem_cons_of_mem _ hx)
      · intro hx
        rcases List.mem_cons.1 hx with rfl | hx
        · exact Or.inl (List.mem_cons_self)
        · rcases ih hx with h | h
          · exact Or.inl (List.mem_cons_of_mem _ h)
          · exact Or.inr h
  have hkeys : ∀ j t, j ∈ (s.data t).map (·.1) → j ∈ (((s.pushTag id sub).write (typeOf id) id d).data t).map (·.1) := by
    intro j t hj
    simp only [ESt.write, ESt.pushTag, ESt.push, ESt.getPos]
    split
    · rename_i h
      rw [prependTo_keys]
      subst h
      split
      · exact hj
      · exact List.mem_append_left _ hj
    · exact hj
  constructor
  · intro t
    simp only [ESt.write, ESt.pushTag, ESt.push, ESt.getPos]
    split
    · rw [prependTo_keys]
      split
      · exact hg.nodup _
      · rename_i hni
        rw [List.nodup_append]
        refine ⟨hg.nodup _, by simp, ?_⟩
        intro a ha b hb
        simp only [List.mem_singleton] at hb
        subst hb
        exact fun h => hni (h ▸ ha)
    · exact hg.nodup t
  · intro t x hx
    simp only [ESt.write, ESt.pushTag, ESt.push, ESt.getPos] at hx
    split at hx
    · rename_i h; subst h
      rcases hmem x hx with h | h
      · exact hg.typed _ x h
      · rw [h.1]
    · exact hg.typed t x hx
  · intro t x hx
    simp only [ESt.write, ESt.pushTag, ESt.push, ESt.getPos] at hx
    split at hx
    · rcases hmem x hx with h | h
      · exact hg.nonempty _ x h
      · exact h.2
    · exact hg.nonempty t x hx
  · intro op hop
    rcases (hf.2.2.1 op).1 hop with h | h
    · exact hg.wf op h
    · exact h ▸ hwf
  · intro op hop j hj
    rcases (hf.2.2.1 op).1 hop with h | h
    · exact hkeys j _ (hg.buf op h j hj)
    · subst h
      have hji : j = id := by
        unfold stateBuffer at hj
        simp only at hj
        split at hj
        · split at hj
          · cases hj
          · split at hj
            · cases hj; rfl
            · cases hj
        · split at hj
          · cases hj; rfl
          · cases hj
      subst hji
      simp only [ESt.write, ESt.pushTag, ESt.push, ESt.getPos, if_true]
      rw [prependTo_keys]
      split
      · assumption
      · simp
  · intro e he
    simp only [ESt.write, ESt.pushTag, ESt.push, ESt.getPos, List.mem_cons] at he ⊢
    rcases he with rfl | he
    · exact hlt
    · exact Nat.lt_of_lt_of_le (hg.enc e he) hf.1.length_le
  · intro hop
    rcases (hf.2.2.1 _).1 hop with h | h
    · exact hL1 (hg.lens h)
    · cases h
      exact hL2 rfl

theorem good_write {s : ESt} (hg : Good s) (id : NodeId) (sub : Nat) (hwf : OpWF (id, sub)) (d : Bytes)
    (hd : d ≠ []) (hn : id.tag ≠ 0) (t : BufType) (ht : t = typeOf id) :
    Good ((s.pushTag id sub).write t id d) :=
  good_write' hg id sub hwf d hd t ht s.lens (fun h => h) (fun h => absurd h hn)

theorem good_getNode {s : ESt} (hg : Good s) (id : NodeId) : Good (s.getNode id).1 :=
  ⟨hg.nodup, hg.typed, hg.nonempty, hg.wf, hg.buf, hg.enc, hg.lens⟩

theorem good_getPos {s : ESt} (hg : Good s) (id : NodeId) (sub : Nat) (hwf : OpWF (id, sub))
    (hb : stateBuffer id sub = none) : Good (s.getPos id sub).1 := by
  have h := good_pushTag hg id sub hwf hb
  exact ⟨h.nodup, h.typed, h.nonempty, h.wf, h.buf,
    fun e he => h.enc e (List.mem_cons_of_mem _ he), h.lens⟩

theorem good_push {s : ESt} (hg : Good s) (e : Nat) (he : e < s.tags.length) : Good (s.push e) := by
  refine ⟨hg.nodup, hg.typed, hg.nonempty, hg.wf, hg.buf, ?_, hg.lens⟩
  intro x hx
  rcases List.mem_cons.1 hx with rfl | hx
  · exact he
  · exact hg.enc x hx

/-! ## Varints -/

theorem readVarint_noncanonical {w : Nat} (hw : 7 < w) {src rest : Bytes} {v : Nat}
    (h : readVarint w true src = some (v, rest)) :
    readVarint w false src = some (v, rest) ∧ src = writeVarint v ++ rest ∧ v < 2 ^ w := by
  rw [readVarint_iff hw] at h
  obtain ⟨bs, h1, h2, h3, h4, h5, h6⟩ := h
  refine ⟨?_, ?_, h5⟩
  · rw [readVarint_iff hw]
    exact ⟨bs, h1, h2, h3, h4, h5, fun h => absurd h (by simp)⟩
  · rw [h1, h6 rfl]

theorem copyVarint_spec {src bs rest : Bytes} (h : copyVarint 64 true src = some (bs, rest)) :
    copyVarint 64 false src = some (bs, rest) ∧ src = bs ++ rest ∧ IsVarint bs ∧ bs.length ≤ 10 := by
  have h1 := (copyVarintLoop_eq (w := 64) true src 0 0).2 bs rest h
  obtain ⟨hs, v, hv⟩ := h1
  obtain ⟨bs', hb1, hb2, hb3, hb4, hb5, hb6⟩ := (readVarint_iff (by omega) true src v rest).1 hv
  have hbb : bs' = bs := List.append_cancel_right (hb1.symm.trans hs)
  subst hbb
  have hf := (readVarint_noncanonical (w := 64) (by omega) hv).1
  refine ⟨?_, hs, hb2, hb4⟩
  cases hc : copyVarint 64 false src with
  | none =>
    have := (copyVarintLoop_eq (w := 64) false src 0 0).1.1 hc
    unfold readVarint at hf
    rw [this] at hf; cases hf
  | some r =>
    obtain ⟨bs2, rest2⟩ := r
    obtain ⟨hs2, v2, hv2⟩ := (copyVarintLoop_eq (w := 64) false src 0 0).2 bs2 rest2 hc
    unfold readVarint at hf
    rw [hf] at hv2
    simp only [Option.some.injEq, Prod.mk.injEq] at hv2
    obtain ⟨_, rfl⟩ := hv2
    have : bs2 = bs' := List.append_cancel_right (hs2.symm.trans hs)
    rw [this]

theorem isVarint_head {bs : Bytes} (h : IsVarint bs) (hb : (bs.headD 0).toNat < 128) :
    bs = [bs.headD 0] := by
  match bs with
  | [] => exact absurd h (by simp [IsVarint])
  | [b] => rfl
  | b :: c :: bs =>
    have h : 128 ≤ b.toNat ∧ _ := h
    simp only [List.headD_cons] at hb
    omega

theorem maskBuffer_clearHigh {bs : Bytes} (h : IsVarint bs) : maskBuffer (clearHigh bs) = bs := by
  match bs with
  | [] => exact absurd h (by simp [IsVarint])
  | [b] =>
    have h : b.toNat < 128 := h
    simp only [clearHigh, List.map_cons, List.map_nil, maskBuffer]
    rw [Nat.mod_eq_of_lt h]; simp
  | b :: c :: bs =>
    have h : 128 ≤ b.toNat ∧ IsVarint (c :: bs) := h
    have ih := maskBuffer_clearHigh h.2
    simp only [clearHigh, List.map_cons] at ih ⊢
    rw [maskBuffer]
    · rw [ih]
      congr 1
      apply UInt8.toNat_inj.1
      have := b.toNat_lt
      rw [ofNat_toNat (by omega), ofNat_toNat (by omega)]
      omega
    · simp

theorem isVarint_ne_nil {bs : Bytes} (h : IsVarint bs) : bs ≠ [] := by
  rintro rfl; simp [IsVarint] at h

/-! ## Unwinding -/

/-- The tag of the node of an index in the list of tags. -/
def tagOf (T : List (NodeId × Nat)) (e : Nat) : Nat :=
  match T[e]? with
  | none => 0
  | some op => op.1.tag

/-- The output and the stack after decoding what remains of the current message and of its parents. -/
def unwind (T : List (NodeId × Nat)) (src : Bytes) (frames : List Frame) (D : Bytes) (S : List (Nat × Nat)) :
    Bytes × List (Nat × Nat) :=
  match frames with
  | [] => (src ++ D, S)
  | f :: fs =>
    let r := unwind T f.rest fs D S
    (src ++ r.1, (r.1.length, tagOf T f.endPos) :: r.2)

theorem unwind_append (T : List (NodeId × Nat)) (x src : Bytes) (frames : List Frame) (D : Bytes)
    (S : List (Nat × Nat)) :
    unwind T (x ++ src) frames D S = (x ++ (unwind T src frames D S).1, (unwind T src frames D S).2) := by
  cases frames <;> simp [unwind, List.append_assoc]

/-- Open messages can be finished: the rest of each of them is well formed, `n` groups being open. -/
def FramesOk (tags : List (NodeId × Nat)) : List Frame → Nat → Prop
  | [], _ => True
  | f :: fs, n => ∃ g id, isProtoLoop g f.rest = true ∧ g.length ≤ n ∧
      tags[f.endPos]? = some (id, kSubEnd) ∧ 8 ≤ id.tag ∧ wireType id.tag = 2 ∧ f.rest.length < 2 ^ 32 ∧
      FramesOk tags fs (n - g.length)

theorem getElem?_prefix {α : Type} {l l' : List α} (h : l <+: l') {i : Nat} {x : α} (hx : l[i]? = some x) :
    l'[i]? = some x := by
  obtain ⟨t, rfl⟩ := h
  rw [List.getElem?_append_left]
  · exact hx
  · rw [List.getElem?_eq_some_iff] at hx; exact hx.1

theorem FramesOk.mono {tags tags' : List (NodeId × Nat)} (h : tags <+: tags') :
    ∀ {fs : List Frame} {n : Nat}, FramesOk tags fs n → FramesOk tags' fs n
  | [], _, _ => trivial
  | _ :: _, _, ⟨g, id, h1, h2, h3, h4, h5, h6, h7⟩ =>
    ⟨g, id, h1, h2, getElem?_prefix h h3, h4, h5, h6, FramesOk.mono h h7⟩

/-- What encoding from `s` to `s'` did: decoding the new tags from the state `(D, S)` leads to `R D S`. -/
def Undoes (s s' : ESt) (R : List (NodeId × Nat) → Bytes → List (Nat × Nat) → Bytes × List (Nat × Nat)) : Prop :=
  s.tags <+: s'.tags ∧ s'.numRecords = s.numRecords ∧ s'.decodedDataSize = s.decodedDataSize ∧
  ∃ new, s'.enc = new ++ s.enc ∧
  ∀ T, s'.tags <+: T → ∀ D L S,
    arun (new.filterMap (T[·]?)) ⟨absData s', s'.lens, D, L, S⟩ =
      some ⟨absData s, s.lens, (R T D S).1, L, (R T D S).2⟩

/-- Undoing one step after undoing the others. -/
theorem Undoes.step {s s1 s' : ESt} {R1 R : List (NodeId × Nat) → Bytes → List (Nat × Nat) → Bytes × List (Nat × Nat)}
    (h : Undoes s1 s' R1) (e : Nat) (op : NodeId × Nat)
    (ht : s.tags <+: s1.tags) (hn : s1.numRecords = s.numRecords)
    (hd : s1.decodedDataSize = s.decodedDataSize) (he : s1.enc = e :: s.enc) (hop : s1.tags[e]? = some op)
    (ha : ∀ T, s1.tags <+: T → ∀ D L S, aop op ⟨absData s1, s1.lens, (R1 T D S).1, L, (R1 T D S).2⟩ =
      some ⟨absData s, s.lens, (R T D S).1, L, (R T D S).2⟩) : Undoes s s' R := by
  obtain ⟨h1, h2, h3, new, h4, h5⟩ := h
  refine ⟨ht.trans h1, h2.trans hn, h3.trans hd, new ++ [e], by rw [h4, he]; simp, ?_⟩
  intro T hT D L S
  rw [List.filterMap_append, arun_append, h5 T hT D L S]
  have hTe : T[e]? = some op := getElem?_prefix (h1.trans hT) hop
  simp only [List.filterMap_cons, hTe, List.filterMap_nil, Option.bind_some, arun]
  rw [ha T (h1.trans hT) D L S]
  rfl

theorem undoes_pushTag {s s0 s' : ESt} {R1 R : List (NodeId × Nat) → Bytes → List (Nat × Nat) → Bytes × List (Nat × Nat)}
    {id : NodeId} {sub : Nat} {n : List NodeId}
    (h0 : s0 = { s with nodes := n })
    (h : Undoes (s0.pushTag id sub) s' R1)
    (ha : ∀ T D L S, aop (id, sub) ⟨absData s, s.lens, (R1 T D S).1, L, (R1 T D S).2⟩ =
      some ⟨absData s, s.lens, (R T D S).1, L, (R T D S).2⟩) : Undoes s s' R := by
  subst h0
  have hf := findOrAppend_spec s.tags (id, sub)
  exact h.step (findOrAppend s.tags (id, sub)).2 (id, sub) hf.1 rfl rfl rfl hf.2.1
    (fun T _ D L S => ha T D L S)

theorem undoes_write {s s0 s' : ESt} {R1 R : List (NodeId × Nat) → Bytes → List (Nat × Nat) → Bytes × List (Nat × Nat)}
    {id : NodeId} {sub : Nat} {n : List NodeId} {t : BufType} {d : Bytes}
    (h0 : s0 = { s with nodes := n }) (ht : t = typeOf id)
    (h : Undoes ((s0.pushTag id sub).write t id d) s' R1)
    (ha : ∀ T D L S, aop (id, sub) ⟨setData (absData s) id (d ++ absData s id), s.lens, (R1 T D S).1, L, (R1 T D S).2⟩ =
      some ⟨absData s, s.lens, (R T D S).1, L, (R T D S).2⟩) : Undoes s s' R := by
  subst h0
  have hf := findOrAppend_spec s.tags (id, sub)
  refine h.step (findOrAppend s.tags (id, sub)).2 (id, sub) hf.1 rfl rfl rfl hf.2.1 ?_
  intro T _ D L S
  rw [absData_write _ _ _ _ ht]
  exact ha T D L S

theorem isProtoLoop_nil {g : List Nat} (h : isProtoLoop g [] = true) : g = [] := by
  rw [isProtoLoop.eq_def] at h
  simpa using h

/-- Inversion of `isProtoLoop`. -/
theorem isProtoLoop_cons {g : List Nat} {src : Bytes} (h : isProtoLoop g src = true) (hs : src ≠ []) :
    ∃ tag src1, readVarint 32 true src = some (tag, src1) ∧ fieldNumber tag ≠ 0 ∧
      ((wireType tag = 0 ∧ ∃ v src2, copyVarint 64 true src1 = some (v, src2) ∧ isProtoLoop g src2 = true) ∨
       (wireType tag = 5 ∧ 4 ≤ src1.length ∧ isProtoLoop g (src1.drop 4) = true) ∨
       (wireType tag = 1 ∧ 8 ≤ src1.length ∧ isProtoLoop g (src1.drop 8) = true) ∨
       (wireType tag = 2 ∧ ∃ n src2, readVarint 32 true src1 = some (n, src2) ∧ n ≤ src2.length ∧
          isProtoLoop g (src2.drop n) = true) ∨
       (wireType tag = 3 ∧ isProtoLoop (fieldNumber tag :: g) src1 = true) ∨
       (wireType tag = 4 ∧ ∃ gs, g = fieldNumber tag :: gs ∧ isProtoLoop gs src1 = true)) := by
  rw [isProtoLoop.eq_def] at h
  rw [if_neg hs] at h
  split at h
  · cases h
  rename_i tag src1 hr
  split at h
  · cases h
  rename_i hf
  refine ⟨tag, src1, hr, hf, ?_⟩
  split at h
  · rename_i hw
    split at h
    · cases h
    · rename_i v src2 hc
      exact Or.inl ⟨hw, v, src2, hc, h⟩
  · rename_i hw
    split at h
    · cases h
    · exact Or.inr (Or.inl ⟨hw, by omega, h⟩)
  · rename_i hw
    split at h
    · cases h
    · exact Or.inr (Or.inr (Or.inl ⟨hw, by omega, h⟩))
  · rename_i hw
    split at h
    · cases h
    · rename_i n src2 hc
      split at h
      · cases h
      · exact Or.inr (Or.inr (Or.inr (Or.inl ⟨hw, n, src2, hc, by omega, h⟩)))
  · rename_i hw
    exact Or.inr (Or.inr (Or.inr (Or.inr (Or.inl ⟨hw, h⟩))))
  · rename_i hw
    split at h
    · cases h
    · rename_i g' gs
      split at h
      · cases h
      · rename_i hg
        simp only [ne_eq, Decidable.not_not] at hg
        exact Or.inr (Or.inr (Or.inr (Or.inr (Or.inr ⟨hw, gs, by rw [hg], h⟩))))
  · cases h

theorem fieldNumber_ne_zero {tag : Nat} (h : fieldNumber tag ≠ 0) : 8 ≤ tag := by
  unfold fieldNumber at h; omega

theorem undoes_refl (s : ESt) (R : List (NodeId × Nat) → Bytes → List (Nat × Nat) → Bytes × List (Nat × Nat))
    (h : ∀ T D S, R T D S = (D, S)) : Undoes s s R := by
  refine ⟨List.prefix_refl _, rfl, rfl, [], rfl, ?_⟩
  intro T _ D L S
  simp [arun, h]

theorem prefix_of_pushTag (s : ESt) (id : NodeId) (sub : Nat) : s.tags <+: (s.pushTag id sub).tags :=
  (findOrAppend_spec s.tags (id, sub)).1

theorem isProto_read_ne {g : List Nat} {src : Bytes} (h : isProtoLoop g src = true) (hs : src ≠ []) :
    readVarint 32 false src ≠ none := by
  obtain ⟨tag, src1, hr, _⟩ := isProtoLoop_cons h hs
  rw [(readVarint_noncanonical (by omega) hr).1]; simp

theorem isProto_read {g : List Nat} {src src1 : Bytes} {tag : Nat} (h : isProtoLoop g src = true)
    (hs : src ≠ []) (hr : readVarint 32 false src = some (tag, src1)) :
    src = writeVarint tag ++ src1 ∧ 8 ≤ tag ∧ tag < 2 ^ 32 ∧
      ((wireType tag = 0 → ∃ v src2, copyVarint 64 true src1 = some (v, src2) ∧ isProtoLoop g src2 = true) ∧
       (wireType tag = 5 → 4 ≤ src1.length ∧ isProtoLoop g (src1.drop 4) = true) ∧
       (wireType tag = 1 → 8 ≤ src1.length ∧ isProtoLoop g (src1.drop 8) = true) ∧
       (wireType tag = 2 → ∃ n src2, readVarint 32 true src1 = some (n, src2) ∧ n ≤ src2.length ∧
          isProtoLoop g (src2.drop n) = true) ∧
       (wireType tag = 3 → isProtoLoop (fieldNumber tag :: g) src1 = true) ∧
       (wireType tag = 4 → ∃ gs, g = fieldNumber tag :: gs ∧ isProtoLoop gs src1 = true)) := by
  obtain ⟨tag', src1', hr', hf, hc⟩ := isProtoLoop_cons h hs
  obtain ⟨h1, h2, h3⟩ := readVarint_noncanonical (by omega) hr'
  rw [h1] at hr
  cases hr
  refine ⟨h2, fieldNumber_ne_zero hf, h3, ?_⟩
  rcases hc with hc | hc | hc | hc | hc | hc <;> obtain ⟨hw, hc⟩ := hc <;> rw [hw] <;> simp [hc]

/-- Encoding a well formed message succeeds, and decoding undoes it. -/
theorem addLoop_spec : ∀ (s : ESt) (parent : Nat) (frames : List Frame) (groups : List Nat) (src : Bytes)
    (g : List Nat), Good s → isProtoLoop g src = true → g.length ≤ groups.length →
    FramesOk s.tags frames (groups.length - g.length) → src.length < 2 ^ 32 →
    ∃ s', addLoop s parent frames groups src = some s' ∧ Good s' ∧
      Undoes s s' (fun T D S => unwind T src frames D S) := by
  intro s parent frames groups src
  fun_induction addLoop s parent frames groups src with
  | case1 s parent groups =>
    intro g hg hp _ _ _
    exact ⟨s, rfl, hg, undoes_refl s _ (fun T D S => by simp [unwind])⟩
  | case2 s parent groups f fs ih =>
    intro g hg hp hgl hf _
    obtain ⟨g', id, h1, h2, h3, h4, h5, h6, h7⟩ := hf
    have hgn := isProtoLoop_nil hp
    subst hgn
    have he : f.endPos < s.tags.length := by
      rw [List.getElem?_eq_some_iff] at h3; exact h3.1
    obtain ⟨s', ha, hg', hu⟩ := ih g' (good_push hg _ he) h1 (by simpa using h2) (by exact (by simpa using h7 : FramesOk s.tags fs (groups.length - g'.length))) h6
    refine ⟨s', ha, hg', ?_⟩
    refine hu.step (s := s) f.endPos (id, kSubEnd) (List.prefix_refl _) rfl rfl rfl h3 ?_
    intro T hT D L S
    have hTe : tagOf T f.endPos = id.tag := by
      unfold tagOf; rw [getElem?_prefix hT h3]
    simp only [unwind, List.nil_append, hTe, aop]
    rw [if_neg (by omega)]
    simp only [h5, kSubEnd, kString, kSubStart]
    rfl
  | case3 s parent frames groups src hs hr =>
    intro g hg hp _ _ _
    exact absurd hr (isProto_read_ne hp hs)
  | case4 s parent frames groups src hs tag src1 hr hw hc =>
    intro g hg hp _ _ _
    obtain ⟨hsrc, h8, h32, hcase⟩ := isProto_read hp hs hr
    obtain ⟨v, src2, hv, _⟩ := hcase.1 hw
    rw [(copyVarint_spec hv).1] at hc; cases hc
  | case5 s parent frames groups src hs tag src1 hr id r hw v src2 hc hv ih =>
    intro g hg hp hgl hf hlen
    obtain ⟨hsrc, h8, h32, hcase⟩ := isProto_read hp hs hr
    obtain ⟨v', src2', hv', hp2⟩ := hcase.1 hw
    obtain ⟨hc', hsrc1, hiv, hv10⟩ := copyVarint_spec hv'
    rw [hc] at hc'; cases hc'
    have hw' : wireType id.tag = 0 := hw
    have ht0 : id.tag ≠ 0 := by show tag ≠ 0; omega
    unfold kMaxVarintInline at hv
    have hwf : OpWF (id, kVarintInline0 + (v.headD 0).toNat) :=
      Or.inr ⟨h8, h32, (by simp only [hw']; omega), (fun _ => by simp only; omega), (by simp only [hw']; omega),
        (fun h => absurd hw' h)⟩
    have hsb : stateBuffer id (kVarintInline0 + (v.headD 0).toNat) = none := by
      unfold stateBuffer hasDataBuffer
      simp [ht0, hw']
    obtain ⟨s', ha, hg', hu⟩ := ih g (good_pushTag (good_getNode hg id) id _ hwf hsb) hp2 hgl
      (hf.mono (prefix_of_pushTag _ _ _)) (by rw [hsrc, hsrc1] at hlen; simp at hlen; omega)
    refine ⟨s', ha, hg', ?_⟩
    refine undoes_pushTag (n := (findOrAppend s.nodes id).1) rfl hu ?_
    intro T D L S
    have hvv := isVarint_head hiv (by omega)
    rw [hsrc, hsrc1, ← List.append_assoc, unwind_append]
    unfold aop
    simp only [ht0, if_false, hw']
    rw [if_pos (by omega)]
    simp only [Nat.add_sub_cancel_left, UInt8.ofNat_toNat]
    rw [← hvv]
  | case6 s parent frames groups src hs tag src1 hr id r hw v src2 hc hv ih =>
    intro g hg hp hgl hf hlen
    obtain ⟨hsrc, h8, h32, hcase⟩ := isProto_read hp hs hr
    obtain ⟨v', src2', hv', hp2⟩ := hcase.1 hw
    obtain ⟨hc', hsrc1, hiv, hv10⟩ := copyVarint_spec hv'
    rw [hc] at hc'; cases hc'
    have hw' : wireType id.tag = 0 := hw
    have ht0 : id.tag ≠ 0 := by show tag ≠ 0; omega
    have hvl : 0 < v.length := List.length_pos_iff.2 (isVarint_ne_nil hiv)
    have hwf : OpWF (id, v.length - 1) :=
      Or.inr ⟨h8, h32, (by simp only [hw']; omega), (fun _ => by unfold kVarintInline0; simp only; omega),
        (by simp only [hw']; omega), (fun h => absurd hw' h)⟩
    obtain ⟨s', ha, hg', hu⟩ := ih g (good_write (good_getNode hg id) id _ hwf _
      (by unfold clearHigh; simp only [ne_eq, List.map_eq_nil_iff]; exact isVarint_ne_nil hiv) ht0 _
      (by simp [typeOf, ht0, hw'])) hp2 hgl
      (hf.mono (prefix_of_pushTag _ _ _)) (by rw [hsrc, hsrc1] at hlen; simp at hlen; omega)
    refine ⟨s', ha, hg', ?_⟩
    refine undoes_write (n := (findOrAppend s.nodes id).1) rfl (by simp [typeOf, ht0, hw']) hu ?_
    intro T D L S
    have hcl : (clearHigh v).length = v.length := by simp [clearHigh]
    rw [hsrc, hsrc1, ← List.append_assoc, unwind_append]
    unfold aop
    simp only [ht0, if_false, hw', setData_same]
    rw [if_neg (by unfold kVarintInline0; omega), if_neg (by simp only [List.length_append, hcl]; omega)]
    rw [show v.length - 1 + 1 = (clearHigh v).length by omega, List.take_left, List.drop_left,
      maskBuffer_clearHigh hiv, setData_setData, setData_self]
  | case7 s parent frames groups src hs tag src1 hr hw hl =>
    intro g hg hp _ _ _
    obtain ⟨hsrc, h8, h32, hcase⟩ := isProto_read hp hs hr
    have := (hcase.2.1 hw).1
    omega
  | case8 s parent frames groups src hs tag src1 hr id r hw hl ih =>
    intro g hg hp hgl hf hlen
    obtain ⟨hsrc, h8, h32, hcase⟩ := isProto_read hp hs hr
    obtain ⟨h4, hp2⟩ := hcase.2.1 hw
    have hw' : wireType id.tag = 5 := hw
    have ht0 : id.tag ≠ 0 := by show tag ≠ 0; omega
    have hwf : OpWF (id, 0) :=
      Or.inr ⟨h8, h32, (by simp only [hw']; omega), (fun h => by simp only [hw'] at h; omega),
        (by simp only [hw']; omega), (fun _ _ => rfl)⟩
    have htl : (src1.take 4).length = 4 := by simp; omega
    obtain ⟨s', ha, hg', hu⟩ := ih g (good_write (good_getNode hg id) id _ hwf _
      (by intro h; rw [h] at htl; simp at htl) ht0 _ (by simp [typeOf, ht0, hw'])) hp2 hgl
      (hf.mono (prefix_of_pushTag _ _ _)) (by rw [hsrc] at hlen; simp at hlen ⊢; omega)
    refine ⟨s', ha, hg', ?_⟩
    refine undoes_write (n := (findOrAppend s.nodes id).1) rfl (by simp [typeOf, ht0, hw']) hu ?_
    intro T D L S
    rw [hsrc]
    conv => rhs; rw [← List.take_append_drop 4 src1, ← List.append_assoc, unwind_append]
    unfold aop
    simp only [ht0, if_false, hw', setData_same]
    rw [if_neg (by simp only [List.length_append, htl]; omega)]
    rw [List.take_left' htl, List.drop_left' htl, setData_setData, setData_self]
  | case9 s parent frames groups src hs tag src1 hr hw hl =>
    intro g hg hp _ _ _
    obtain ⟨hsrc, h8, h32, hcase⟩ := isProto_read hp hs hr
    have := (hcase.2.2.1 hw).1
    omega
  | case10 s parent frames groups src hs tag src1 hr id r hw hl ih =>
    intro g hg hp hgl hf hlen
    obtain ⟨hsrc, h8, h32, hcase⟩ := isProto_read hp hs hr
    obtain ⟨h4, hp2⟩ := hcase.2.2.1 hw
    have hw' : wireType id.tag = 1 := hw
    have ht0 : id.tag ≠ 0 := by show tag ≠ 0; omega
    have hwf : OpWF (id, 0) :=
      Or.inr ⟨h8, h32, (by simp only [hw']; omega), (fun h => by simp only [hw'] at h; omega),
        (by simp only [hw']; omega), (fun _ _ => rfl)⟩
    have htl : (src1.take 8).length = 8 := by simp; omega
    obtain ⟨s', ha, hg', hu⟩ := ih g (good_write (good_getNode hg id) id _ hwf _
      (by intro h; rw [h] at htl; simp at htl) ht0 _ (by simp [typeOf, ht0, hw'])) hp2 hgl
      (hf.mono (prefix_of_pushTag _ _ _)) (by rw [hsrc] at hlen; simp at hlen ⊢; omega)
    refine ⟨s', ha, hg', ?_⟩
    refine undoes_write (n := (findOrAppend s.nodes id).1) rfl (by simp [typeOf, ht0, hw']) hu ?_
    intro T D L S
    rw [hsrc]
    conv => rhs; rw [← List.take_append_drop 8 src1, ← List.append_assoc, unwind_append]
    unfold aop
    simp only [ht0, if_false, hw', setData_same]
    rw [if_neg (by simp only [List.length_append, htl]; omega)]
    rw [List.take_left' htl, List.drop_left' htl, setData_setData, setData_self]
  | case11 s parent frames groups src hs tag src1 hr hw hc =>
    intro g hg hp _ _ _
    obtain ⟨hsrc, h8, h32, hcase⟩ := isProto_read hp hs hr
    obtain ⟨n, src2, hv, _⟩ := hcase.2.2.2.1 hw
    rw [(readVarint_noncanonical (by omega) hv).1] at hc; cases hc
  | case12 s parent frames groups src hs tag src1 hr hw n src2 hc hl =>
    intro g hg hp _ _ _
    obtain ⟨hsrc, h8, h32, hcase⟩ := isProto_read hp hs hr
    obtain ⟨n', src2', hv, hn, _⟩ := hcase.2.2.2.1 hw
    rw [(readVarint_noncanonical (by omega) hv).1] at hc; cases hc
    omega
  | case13 s parent frames groups src hs tag src1 hr id r hw n src2 hc hl hsub s1 e ih =>
    intro g hg hp hgl hf hlen
    obtain ⟨hsrc, h8, h32, hcase⟩ := isProto_read hp hs hr
    obtain ⟨n', src2', hv, hn, hp2⟩ := hcase.2.2.2.1 hw
    obtain ⟨hv1, hsrc1, hn32⟩ := readVarint_noncanonical (by omega) hv
    rw [hv1] at hc; cases hc
    have hw' : wireType id.tag = 2 := hw
    have ht0 : id.tag ≠ 0 := by show tag ≠ 0; omega
    have hwf : ∀ x, x ≤ 2 → OpWF (id, x) := fun x hx =>
      Or.inr ⟨h8, h32, (by simp only [hw']; omega), (fun h => by simp only [hw'] at h; omega),
        (fun _ => hx), (fun _ h => absurd hw' h)⟩
    have hsb : stateBuffer id kSubStart = none := by simp [stateBuffer, ht0, hw']
    have hsb2 : stateBuffer id kSubEnd = none := by simp [stateBuffer, ht0, hw']
    have hpos := findOrAppend_spec s1.tags (id, kSubEnd)
    have hg1 : Good s1 := good_pushTag (good_getNode hg id) id _ (hwf _ (by simp [kSubStart])) hsb
    have hpre : s.tags <+: e.1.tags := (prefix_of_pushTag (s.getNode id).1 id kSubStart).trans hpos.1
    have hlen' : src2.length < 2 ^ 32 := by
      rw [hsrc, hsrc1] at hlen; simp at hlen; omega
    obtain ⟨s', ha, hg', hu⟩ := ih [] (good_getPos hg1 id _ (hwf _ (by simp [kSubEnd])) hsb2) hsub.2.2
      (by simp) ⟨g, id, hp2, by simpa using hgl, hpos.2.1, h8, hw', by simp; omega,
        by simpa using hf.mono hpre⟩ (by simp; omega)
    refine ⟨s', ha, hg', ?_⟩
    have hpush := findOrAppend_spec s.tags (id, kSubStart)
    obtain ⟨u1, u2, u3, new, u4, u5⟩ := hu
    refine Undoes.step (s1 := s1) (R1 := fun T D S =>
        (src2.take n ++ (unwind T (src2.drop n) frames D S).1,
          ((unwind T (src2.drop n) frames D S).1.length, id.tag) :: (unwind T (src2.drop n) frames D S).2))
      ⟨hpos.1.trans u1, u2, u3, new, u4, ?_⟩ (findOrAppend s.tags (id, kSubStart)).2 (id, kSubStart)
      hpush.1 rfl rfl rfl hpush.2.1 ?_
    · intro T hT D L S
      have hte : tagOf T e.2 = id.tag := by
        have hx : T[e.2]? = some (id, kSubEnd) := getElem?_prefix (u1.trans hT) hpos.2.1
        unfold tagOf; rw [hx]
      have := u5 T hT D L S
      simp only [unwind, hte] at this
      exact this
    · intro T hT D L S
      rw [hsrc, hsrc1]
      conv => rhs; rw [← List.take_append_drop n src2, ← List.append_assoc, ← List.append_assoc, unwind_append]
      unfold aop
      simp only [ht0, if_false, hw']
      rw [if_neg (by simp [kSubStart, kString])]
      simp only [if_true, List.length_append, Nat.add_sub_cancel, List.length_take, Nat.min_eq_left hn]
      rw [if_neg (by omega)]
      simp only [List.append_assoc]
      rfl
  | case14 s parent frames groups src hs tag src1 hr id r hw n src2 hc hl hsub ih =>
    intro g hg hp hgl hf hlen
    obtain ⟨hsrc, h8, h32, hcase⟩ := isProto_read hp hs hr
    obtain ⟨n', src2', hv, hn, hp2⟩ := hcase.2.2.2.1 hw
    obtain ⟨hv1, hsrc1, hn32⟩ := readVarint_noncanonical (by omega) hv
    rw [hv1] at hc; cases hc
    have hw' : wireType id.tag = 2 := hw
    have ht0 : id.tag ≠ 0 := by show tag ≠ 0; omega
    have hwf : OpWF (id, kString) :=
      Or.inr ⟨h8, h32, (by simp only [hw']; omega), (fun h => by simp only [hw'] at h; omega),
        (fun _ => by simp [kString]), (fun _ h => absurd hw' h)⟩
    have hlen' : (writeVarint n).length + src2.length < 2 ^ 32 := by
      rw [hsrc, hsrc1] at hlen; simp at hlen; omega
    have hd : src1.take (src1.length - src2.length + n) = writeVarint n ++ src2.take n := by
      rw [hsrc1, List.length_append, Nat.add_sub_cancel, List.take_append, List.take_of_length_le (by omega),
        Nat.add_sub_cancel_left]
    rw [hd] at ih ⊢
    obtain ⟨s', ha, hg', hu⟩ := ih g (good_write (good_getNode hg id) id _ hwf _
      (by simp [writeVarint_ne_nil]) ht0 _ (by simp [typeOf, ht0, hw'])) hp2 hgl
      (hf.mono (prefix_of_pushTag _ _ _)) (by simp; omega)
    refine ⟨s', ha, hg', ?_⟩
    refine undoes_write (n := (findOrAppend s.nodes id).1) rfl (by simp [typeOf, ht0, hw']) hu ?_
    intro T D L S
    rw [hsrc, hsrc1]
    conv => rhs; rw [← List.take_append_drop n src2, ← List.append_assoc, ← List.append_assoc, unwind_append]
    have htl : (src2.take n).length = n := by simp; omega
    unfold aop
    simp only [ht0, if_false, hw', setData_same, if_true]
    rw [List.append_assoc, readVarint_write (by omega) hn32]
    simp only
    rw [show (writeVarint n ++ (List.take n src2 ++ absData s id)).length -
      (List.take n src2 ++ absData s id).length = (writeVarint n).length by
        rw [List.length_append]; omega]
    rw [if_neg (by omega), if_neg (by simp only [List.length_append, htl]; omega)]
    rw [← List.append_assoc, List.take_left' (by simp only [List.length_append, htl]),
      List.drop_left' (by simp only [List.length_append, htl]), setData_setData, setData_self]
    simp only [List.append_assoc]
    rfl
  | case15 s parent frames groups src hs tag src1 hr id r hw ih =>
    intro g hg hp hgl hf hlen
    obtain ⟨hsrc, h8, h32, hcase⟩ := isProto_read hp hs hr
    have hp2 := hcase.2.2.2.2.1 hw
    have hw' : wireType id.tag = 3 := hw
    have ht0 : id.tag ≠ 0 := by show tag ≠ 0; omega
    have hwf : OpWF (id, 0) :=
      Or.inr ⟨h8, h32, (by simp only [hw']; omega), (fun h => by simp only [hw'] at h; omega),
        (by simp only [hw']; omega), (fun _ _ => rfl)⟩
    have hsb : stateBuffer id 0 = none := by simp [stateBuffer, ht0, hw', hasDataBuffer]
    obtain ⟨s', ha, hg', hu⟩ := ih (fieldNumber tag :: g) (good_pushTag (good_getNode hg id) id _ hwf hsb) hp2
      (by simpa using hgl)
      (by simpa using hf.mono (prefix_of_pushTag (s.getNode id).1 id 0)) (by rw [hsrc] at hlen; simp at hlen; omega)
    refine ⟨s', ha, hg', ?_⟩
    refine undoes_pushTag (n := (findOrAppend s.nodes id).1) rfl hu ?_
    intro T D L S
    rw [hsrc, unwind_append]
    unfold aop
    simp only [ht0, if_false, hw']
    rfl
  | case16 s parent frames src hs tag src1 hr hw =>
    intro g hg hp hgl _ _
    obtain ⟨hsrc, h8, h32, hcase⟩ := isProto_read hp hs hr
    obtain ⟨gs, rfl, _⟩ := hcase.2.2.2.2.2 hw
    simp at hgl
  | case17 s parent frames src hs tag src1 hr id r hw g0 gs0 ih =>
    intro g hg hp hgl hf hlen
    obtain ⟨hsrc, h8, h32, hcase⟩ := isProto_read hp hs hr
    obtain ⟨gs, rfl, hp2⟩ := hcase.2.2.2.2.2 hw
    have hw' : wireType id.tag = 4 := hw
    have ht0 : id.tag ≠ 0 := by show tag ≠ 0; omega
    have hwf : OpWF (id, 0) :=
      Or.inr ⟨h8, h32, (by simp only [hw']; omega), (fun h => by simp only [hw'] at h; omega),
        (by simp only [hw']; omega), (fun _ _ => rfl)⟩
    have hsb : stateBuffer id 0 = none := by simp [stateBuffer, ht0, hw', hasDataBuffer]
    obtain ⟨s', ha, hg', hu⟩ := ih gs (good_pushTag (good_getNode hg id) id _ hwf hsb) hp2
      (by simpa using hgl)
      (by simpa using hf.mono (prefix_of_pushTag (s.getNode id).1 id 0)) (by rw [hsrc] at hlen; simp at hlen; omega)
    refine ⟨s', ha, hg', ?_⟩
    refine undoes_pushTag (n := (findOrAppend s.nodes id).1) rfl hu ?_
    intro T D L S
    rw [hsrc, unwind_append]
    unfold aop
    simp only [ht0, if_false, hw']
    rfl
  | case18 s parent frames groups src hs tag src1 hr h0 h5 h1 h2 h3 h4 =>
    intro g hg hp _ _ _
    obtain ⟨tag', src1', hr', _, hc⟩ := isProtoLoop_cons hp hs
    rw [(readVarint_noncanonical (by omega) hr').1] at hr
    cases hr
    rcases hc with h | h | h | h | h | h
    · exact absurd h.1 h0
    · exact absurd h.1 h5
    · exact absurd h.1 h1
    · exact absurd h.1 h2
    · exact absurd h.1 h3
    · exact absurd h.1 h4

/-! ## Records -/

/-- What adding records `rs` did, the first of them being the first in `rs`. -/
def Added (s s' : ESt) (rs : List Bytes) : Prop :=
  s.tags <+: s'.tags ∧ s'.numRecords = s.numRecords + rs.length ∧
  s'.decodedDataSize = s.decodedDataSize + rs.flatten.length ∧
  ∃ new, s'.enc = new ++ s.enc ∧ rs.length ≤ new.length ∧
  ∀ T, s'.tags <+: T → ∀ D L,
    arun (new.filterMap (T[·]?)) ⟨absData s', s'.lens, D, L, []⟩ =
      some ⟨absData s, s.lens, rs.flatten ++ D, limitsBack D.length rs ++ L, []⟩
where
  /-- Sizes of the output before each record, the last one written being first. -/
  limitsBack (n : Nat) : List Bytes → List Nat
    | [] => []
    | r :: rs => (r.length + rs.flatten.length + n) :: limitsBack n rs

theorem isProtoMessage_nil : isProtoMessage [] = true := by
  unfold isProtoMessage; rw [isProtoLoop.eq_def]; rfl

theorem addRecord_spec {s : ESt} (hg : Good s) (r : Bytes) (hn : s.numRecords ≠ kMaxNumRecords)
    (hd : r.length ≤ (2 ^ 64 - 1) - s.decodedDataSize) (hr : r.length < 2 ^ 32) :
    ∃ s', s.addRecord r = some s' ∧ Good s' ∧ Added s s' [r] := by
  unfold ESt.addRecord
  rw [if_neg hn, if_neg (by omega)]
  by_cases hp : isProtoMessage r = true
  · simp only [hp, if_true]
    have hg1 : Good { s with numRecords := s.numRecords + 1, decodedDataSize := s.decodedDataSize + r.length } :=
      ⟨hg.nodup, hg.typed, hg.nonempty, hg.wf, hg.buf, hg.enc, hg.lens⟩
    have hg2 := good_pushTag (good_getNode hg1 ⟨kStartOfMessage, 0⟩) ⟨kStartOfMessage, 0⟩ 0
      (Or.inl ⟨rfl, Or.inr rfl, rfl⟩) (by simp [stateBuffer, kStartOfMessage, kNonProto])
    obtain ⟨s', h1, h2, h3, h4, h5, new, h6, h7⟩ := addLoop_spec _ kRoot [] [] r [] hg2 hp (by simp) trivial hr
    have hf := findOrAppend_spec s.tags (⟨kStartOfMessage, 0⟩, 0)
    refine ⟨s', h1, h2, hf.1.trans h3, ?_, ?_, new ++ [(findOrAppend s.tags (⟨kStartOfMessage, 0⟩, 0)).2],
      ?_, by simp, ?_⟩
    · rw [h4]; rfl
    · rw [h5]; simp [ESt.pushTag, ESt.push, ESt.getPos, ESt.getNode]
    · rw [h6]; simp [ESt.pushTag, ESt.push, ESt.getPos, ESt.getNode]
    · intro T hT D L
      rw [List.filterMap_append, arun_append, h7 T hT D L []]
      have hTe : T[(findOrAppend s.tags (⟨kStartOfMessage, 0⟩, 0)).2]? = some (⟨kStartOfMessage, 0⟩, 0) :=
        getElem?_prefix (h3.trans hT) hf.2.1
      simp only [List.filterMap_cons, hTe, List.filterMap_nil, Option.bind_some, arun, unwind]
      simp [aop, kStartOfMessage, kNonProto, Added.limitsBack, arun]
      exact ⟨rfl, rfl⟩
  · simp only [hp, if_false]
    have hne : r ≠ [] := by rintro rfl; exact hp isProtoMessage_nil
    have hg1 : Good { s with numRecords := s.numRecords + 1, decodedDataSize := s.decodedDataSize + r.length } :=
      ⟨hg.nodup, hg.typed, hg.nonempty, hg.wf, hg.buf, hg.enc, hg.lens⟩
    have hg2 := good_write' (good_getNode hg1 ⟨kNonProto, 0⟩) ⟨kNonProto, 0⟩ 0
      (Or.inl ⟨rfl, Or.inl rfl, rfl⟩) r hne .nonProto rfl (writeVarint r.length ++ s.lens)
      (fun _ => by simp [writeVarint_ne_nil]) (fun _ => by simp [writeVarint_ne_nil])
    have hf := findOrAppend_spec s.tags (⟨kNonProto, 0⟩, 0)
    refine ⟨_, rfl, hg2, hf.1, rfl, ?_, [(findOrAppend s.tags (⟨kNonProto, 0⟩, 0)).2], rfl, by simp, ?_⟩
    · simp [ESt.pushTag, ESt.push, ESt.getPos, ESt.getNode, ESt.write]
    · intro T hT D L
      have hTe : T[(findOrAppend s.tags (⟨kNonProto, 0⟩, 0)).2]? = some (⟨kNonProto, 0⟩, 0) :=
        getElem?_prefix hT hf.2.1
      simp only [List.filterMap_cons, hTe, List.filterMap_nil, arun]
      have ha : ∀ x : ESt, x.data = (s.write .nonProto ⟨kNonProto, 0⟩ r).data →
          absData x = setData (absData s) ⟨kNonProto, 0⟩ (r ++ absData s ⟨kNonProto, 0⟩) := by
        intro x hx
        rw [← absData_write s .nonProto ⟨kNonProto, 0⟩ r rfl]
        funext j
        unfold absData
        rw [hx]
      have hb : ∀ x : NodeId × Nat, x = (⟨kNonProto, 0⟩, 0) → (aop x
          ⟨setData (absData s) ⟨kNonProto, 0⟩ (r ++ absData s ⟨kNonProto, 0⟩), writeVarint r.length ++ s.lens, D, L, []⟩) =
          some ⟨absData s, s.lens, r ++ D, (r ++ D).length :: L, []⟩ := by
        rintro _ rfl
        unfold aop
        simp only [if_true, setData_same]
        rw [readVarint_write (by omega) hr]
        simp only [ne_eq, not_true_eq_false, if_false]
        rw [if_neg (by simp), List.take_left' rfl, List.drop_left' rfl, setData_setData, setData_self]
      have key : ∀ x : ESt, x.data = (s.write .nonProto ⟨kNonProto, 0⟩ r).data →
          x.lens = writeVarint r.length ++ s.lens →
          (aop (⟨kNonProto, 0⟩, 0) ⟨absData x, x.lens, D, L, []⟩).bind (arun []) =
            some ⟨absData s, s.lens, [r].flatten ++ D, Added.limitsBack D.length [r] ++ L, []⟩ := by
        intro x hx hxl
        rw [ha x hx, hxl, hb _ rfl]
        simp [Added.limitsBack, arun]
      exact key _ rfl rfl

theorem limitsBack_append (n : Nat) (x y : List Bytes) :
    Added.limitsBack n (x ++ y) = Added.limitsBack (y.flatten.length + n) x ++ Added.limitsBack n y := by
  induction x with
  | nil => rfl
  | cons r x ih =>
    simp only [List.cons_append, Added.limitsBack, ih, List.flatten_append, List.length_append]
    congr 1; omega

theorem Added.trans {s s1 s2 : ESt} {x y : List Bytes} (h1 : Added s s1 x) (h2 : Added s1 s2 y) :
    Added s s2 (x ++ y) := by
  obtain ⟨a1, a2, a3, new1, a4, a6, a5⟩ := h1
  obtain ⟨b1, b2, b3, new2, b4, b6, b5⟩ := h2
  refine ⟨a1.trans b1, by rw [b2, a2]; simp; omega, by rw [b3, a3]; simp; omega, new2 ++ new1, by rw [b4, a4]; simp,
    by simp; omega, ?_⟩
  intro T hT D L
  rw [List.filterMap_append, arun_append, b5 T hT D L]
  simp only [Option.bind_some]
  rw [a5 T (b1.trans hT)]
  rw [limitsBack_append]
  simp [List.append_assoc]

/-- Adding all records. -/
theorem addAll_spec : ∀ (rs : List Bytes) {s : ESt}, Good s → s.numRecords + rs.length ≤ kMaxNumRecords →
    s.decodedDataSize + rs.flatten.length < 2 ^ 64 → (∀ r ∈ rs, r.length < 2 ^ 32) →
    ∃ s', s.addAll rs = some s' ∧ Good s' ∧ Added s s' rs
  | [], s, hg, _, _, _ => ⟨s, rfl, hg, List.prefix_refl _, rfl, by simp, [], rfl, by simp,
      fun T _ D L => by simp [arun, Added.limitsBack]⟩
  | r :: rs, s, hg, hn, hd, hr => by
    simp only [List.length_cons, List.flatten_cons, List.length_append] at hn hd
    obtain ⟨s1, h1, h2, h3⟩ := addRecord_spec hg r (by omega) (by omega) (hr r List.mem_cons_self)
    have hn1 := h3.2.1
    have hd1 := h3.2.2.1
    simp only [List.length_cons, List.length_nil, List.flatten_cons, List.flatten_nil, List.append_nil] at hn1 hd1
    obtain ⟨s2, h4, h5, h6⟩ := addAll_spec rs h2 (by omega) (by omega) (fun x hx => hr x (List.mem_cons_of_mem _ hx))
    refine ⟨s2, ?_, h5, h3.trans h6⟩
    simp [ESt.addAll, h1, h4]

end Riegeli.Tr

import Verif.TrTrie
import Verif.TrTree
/-!
# Transposed chunks: what the operations of the encoder mean to the decoder, with field projection

`pop` is the effect of one decoded tag on the output and the buffers, without the state machine, when the projection is
applied. Decoding the tags in the order opposite to the order of encoding produces the projected records.
-/
namespace Riegeli.Tr
open Riegeli.Proj

/-- Decoder state without the state machine, with projection. -/
structure PSt where
  data : NodeId → Bytes
  lens : Bytes
  dest : Bytes
  limits : List Nat
  stack : List (Nat × Nat)
  skipped : Nat

/-- Forgetting the skipping level. -/
def PSt.toA (a : PSt) : ASt := ⟨a.data, a.lens, a.dest, a.limits, a.stack⟩
/-- Adding the skipping level. -/
def ASt.toP (a : ASt) (k : Nat) : PSt := ⟨a.data, a.lens, a.dest, a.limits, a.stack, k⟩

/-- Kinds of tags. -/
inductive Kind
  | leaf | subEnd | subStart | groupStart | groupEnd
deriving DecidableEq, Repr

/-- The kind of a tag. -/
def kindOf (op : NodeId × Nat) : Kind :=
  if wireType op.1.tag = 3 then .groupStart
  else if wireType op.1.tag = 4 then .groupEnd
  else if wireType op.1.tag = 2 then
    if op.2 = kString then .leaf else if op.2 = kSubStart then .subStart else .subEnd
  else .leaf

/-- The value of a field of which only the existence matters. -/
def cleared (tag : Nat) : Bytes :=
  if wireType tag = 5 then List.replicate 4 0 else if wireType tag = 1 then List.replicate 8 0 else [0]

/-- The effect of a tag which is included as told. -/
def pstep (inc : Included) (op : NodeId × Nat) (a : PSt) : Option PSt :=
  match kindOf op with
  | .leaf =>
    match inc with
    | .yes => (aop op a.toA).map (·.toP a.skipped)
    | .no => some a
    | .existence => some { a with dest := writeVarint op.1.tag ++ cleared op.1.tag ++ a.dest }
  | .subEnd =>
    if inc = .no then some { a with skipped := a.skipped + 1 }
    else some { a with stack := (a.dest.length, op.1.tag) :: a.stack }
  | .groupEnd =>
    if inc = .no then some { a with skipped := a.skipped + 1 }
    else some { a with stack := (a.dest.length, op.1.tag) :: a.stack, dest := writeVarint op.1.tag ++ a.dest }
  | .subStart =>
    if inc = .no then (if a.skipped = 0 then none else some { a with skipped := a.skipped - 1 })
    else
      match a.stack with
      | [] => none
      | (pos, tag) :: stack =>
        if a.dest.length - pos > 2 ^ 32 - 1 then none
        else some { a with stack := stack, dest := writeVarint tag ++ writeVarint (a.dest.length - pos) ++ a.dest }
  | .groupStart =>
    if inc = .no then (if a.skipped = 0 then none else some { a with skipped := a.skipped - 1 })
    else
      match a.stack with
      | [] => none
      | _ :: stack => some { a with stack := stack, dest := writeVarint op.1.tag ++ a.dest }

/-- Field numbers on the stack, outermost first. -/
def nums (stack : List (Nat × Nat)) : List Nat := (stack.map (fun x => fieldNumber x.2)).reverse

/-- What the decoder computes in `SetCallbackType`. For the start of a group or a submessage it only matters whether it is
excluded. -/
def online (m : List IncField) (a : PSt) (op : NodeId × Nat) : Included :=
  if a.skipped > 0 then .no
  else
    match kindOf op with
    | .subStart => .yes
    | .groupStart => if (walk m none (nums a.stack)).1 = .no then .no else .yes
    | _ => walkLast m none (nums a.stack) (fieldNumber op.1.tag)

/-- The effect of a tag, provided that what the decoder computes is as told. -/
def pop (m : List IncField) (inc : NodeId × Nat → Included) (op : NodeId × Nat) (a : PSt) : Option PSt :=
  if op.1.tag = 0 then (if a.skipped ≠ 0 then none else (aop op a.toA).map (·.toP a.skipped))
  else if online m a op ≠ inc op then none
  else pstep (inc op) op a

/-- Decoding a sequence of tags. -/
def prun (m : List IncField) (inc : NodeId × Nat → Included) : List (NodeId × Nat) → PSt → Option PSt
  | [], a => some a
  | op :: ops, a => (pop m inc op a).bind (prun m inc ops)

theorem prun_append (m : List IncField) (inc : NodeId × Nat → Included) (x y : List (NodeId × Nat)) :
    ∀ a, prun m inc (x ++ y) a = (prun m inc x a).bind (prun m inc y) := by
  induction x with
  | nil => intro a; rfl
  | cons op x ih =>
    intro a
    simp only [List.cons_append, prun]
    cases pop m inc op a with
    | none => rfl
    | some b => simp [ih]

/-! ## Paths of message ids -/

/-- `P` gives the paths of message ids. -/
structure Paths (P : Nat → List Nat) (nodes : List NodeId) : Prop where
  root : P kRoot = []
  node : ∀ (i : Nat) (x : NodeId), nodes[i]? = some x → P (kRoot + 1 + i) = P x.parent ++ [fieldNumber x.tag]

theorem Paths.mono {P : Nat → List Nat} {n n' : List NodeId} (h : n <+: n') (hp : Paths P n') : Paths P n :=
  ⟨hp.root, fun i x hx => hp.node i x (getElem?_prefix h hx)⟩

/-- Parents are created before children. -/
def ParentsOk (nodes : List NodeId) : Prop := ∀ (i : Nat) (x : NodeId), nodes[i]? = some x → x.parent < kRoot + 1 + i

/-- The path of a message id. -/
def pathOf (nodes : List NodeId) (id : Nat) : List Nat :=
  if kRoot < id then
    match nodes[id - (kRoot + 1)]? with
    | none => []
    | some x => if _h : x.parent < id then pathOf nodes x.parent ++ [fieldNumber x.tag] else []
  else []
termination_by id

theorem pathOf_paths {nodes : List NodeId} (h : ParentsOk nodes) : Paths (pathOf nodes) nodes := by
  constructor
  · rw [pathOf, if_neg (by omega)]
  · intro i x hx
    rw [pathOf, if_pos (by omega), show kRoot + 1 + i - (kRoot + 1) = i by omega, hx]
    simp only
    rw [dif_pos (h i x hx)]

/-- What the projection says about a tag. -/
def incOf (F : List (List Nat)) (P : Nat → List Nat) (op : NodeId × Nat) : Included :=
  match kindOf op with
  | .groupEnd => ofInclusion (inclusion F (P op.1.parent))
  | .subStart => if inclusion F (P op.1.parent ++ [fieldNumber op.1.tag]) = .remove then .no else .yes
  | .groupStart => if inclusion F (P op.1.parent ++ [fieldNumber op.1.tag]) = .remove then .no else .yes
  | _ => ofInclusion (inclusion F (P op.1.parent ++ [fieldNumber op.1.tag]))

/-- Whether the buffer of a node is used. -/
def keepsData (F : List (List Nat)) (P : Nat → List Nat) (id : NodeId) : Prop :=
  id.tag = 0 ∨ inclusion F (P id.parent ++ [fieldNumber id.tag]) = .keep

instance (F : List (List Nat)) (P : Nat → List Nat) (id : NodeId) : Decidable (keepsData F P id) := by
  unfold keepsData; infer_instance

/-- The buffers which are used. -/
def projData (F : List (List Nat)) (P : Nat → List Nat) (s : ESt) (id : NodeId) : Bytes :=
  if keepsData F P id then absData s id else []

theorem projData_congr {F : List (List Nat)} {P : Nat → List Nat} {s s' : ESt} (h : s'.data = s.data) :
    projData F P s' = projData F P s := by
  funext id
  unfold projData absData
  rw [h]

theorem projData_keep {F : List (List Nat)} {P : Nat → List Nat} {s s' : ESt} {t : BufType} {id : NodeId} {d : Bytes}
    (hd : s'.data = (s.write t id d).data) (ht : t = typeOf id) (hk : keepsData F P id) :
    projData F P s' = setData (projData F P s) id (d ++ projData F P s id) := by
  have h := absData_write s t id d ht
  funext j
  have hj : absData s' j = setData (absData s) id (d ++ absData s id) j := by
    rw [← h]; unfold absData; rw [hd]
  unfold projData setData at *
  by_cases hji : j = id
  · subst hji
    simp only [hk, if_true]
    rw [hj]; simp
  · simp only [if_neg hji] at hj ⊢
    rw [hj]

theorem projData_drop {F : List (List Nat)} {P : Nat → List Nat} {s s' : ESt} {t : BufType} {id : NodeId} {d : Bytes}
    (hd : s'.data = (s.write t id d).data) (ht : t = typeOf id) (hk : ¬ keepsData F P id) :
    projData F P s' = projData F P s := by
  have h := absData_write s t id d ht
  funext j
  have hj : absData s' j = setData (absData s) id (d ++ absData s id) j := by
    rw [← h]; unfold absData; rw [hd]
  unfold projData setData at *
  by_cases hji : j = id
  · subst hji
    simp only [hk, if_false]
  · simp only [if_neg hji] at hj
    rw [hj]

/-! ## Segments -/

/-- Where the decoder is: in a message at path `p` which is not skipped, or in a skipped message. -/
def At (F : List (List Nat)) (p : List Nat) (S : List (Nat × Nat)) (k : Nat) : Prop :=
  (k = 0 ∧ nums S = p ∧ (p = [] ∨ inclusion F p ≠ .remove)) ∨ (0 < k ∧ p ≠ [] ∧ inclusion F p = .remove)

/-- What encoding from `s` to `s'` inside the message `parent` did: decoding the new tags writes `out`. -/
def Seg (m : List IncField) (F : List (List Nat)) (parent : Nat) (s s' : ESt) (out : List Nat → Bytes) : Prop :=
  s.tags <+: s'.tags ∧ s.nodes <+: s'.nodes ∧ s'.numRecords = s.numRecords ∧ s'.decodedDataSize = s.decodedDataSize ∧
  s'.lens = s.lens ∧
  ∃ new, s'.enc = new ++ s.enc ∧
  ∀ T P, s'.tags <+: T → Paths P s'.nodes → ∀ D L S k, At F (P parent) S k →
    prun m (incOf F P) (new.filterMap (T[·]?)) ⟨projData F P s', s'.lens, D, L, S, k⟩ =
      some ⟨projData F P s, s.lens, (if k = 0 then out (P parent) else []) ++ D, L, S, k⟩

theorem Seg.trans {m : List IncField} {F : List (List Nat)} {parent : Nat} {s s1 s2 : ESt} {o1 o2 : List Nat → Bytes}
    (h1 : Seg m F parent s s1 o1) (h2 : Seg m F parent s1 s2 o2) : Seg m F parent s s2 (fun p => o1 p ++ o2 p) := by
  obtain ⟨a1, a2, a3, a4, a5, n1, a6, a7⟩ := h1
  obtain ⟨b1, b2, b3, b4, b5, n2, b6, b7⟩ := h2
  refine ⟨a1.trans b1, a2.trans b2, b3.trans a3, b4.trans a4, b5.trans a5, n2 ++ n1, by rw [b6, a6, List.append_assoc], ?_⟩
  intro T P hT hP D L S k hat
  rw [List.filterMap_append, prun_append, b7 T P hT hP D L S k hat, Option.bind_some,
    a7 T P (b1.trans hT) (Paths.mono b2 hP) _ L S k hat]
  by_cases hk : k = 0
  · simp [hk]
  · simp [hk]

theorem Seg.congr {m : List IncField} {F : List (List Nat)} {parent : Nat} {s s' : ESt} {o o' : List Nat → Bytes}
    (h : Seg m F parent s s' o) (he : ∀ p, o p = o' p) : Seg m F parent s s' o' := by
  have : o = o' := funext he
  rw [← this]; exact h

theorem Seg.refl (m : List IncField) (F : List (List Nat)) (parent : Nat) (s : ESt) : Seg m F parent s s (fun _ => []) :=
  ⟨List.prefix_refl _, List.prefix_refl _, rfl, rfl, rfl, [], rfl, by intro T P _ _ D L S k _; simp [prun]⟩

/-- The output for a leaf. -/
def leafOut (F : List (List Nat)) (tag : Nat) (value : Bytes) (p : List Nat) : Bytes :=
  match inclusion F (p ++ [fieldNumber tag]) with
  | .keep => writeVarint tag ++ value
  | .clear => writeVarint tag ++ cleared tag
  | .remove => []

theorem online_at {m : List IncField} {F : List (List Nat)} (ha : Answers m F) (hF : ∀ f ∈ F, f ≠ []) {a : PSt} {p : List Nat}
    (hat : At F p a.stack a.skipped) {op : NodeId × Nat} (hk : kindOf op ≠ .subStart ∧ kindOf op ≠ .groupStart) :
    online m a op = ofInclusion (inclusion F (p ++ [fieldNumber op.1.tag])) := by
  unfold online
  rcases hat with ⟨h1, h2, _⟩ | ⟨h1, _, h3⟩
  · rw [if_neg (by omega), h2]
    have := walkLast_spec ha (fieldNumber op.1.tag) p [] none rfl (no_full_nil hF)
    rw [List.nil_append] at this
    rw [← this]
    split
    · rename_i h; exact absurd h hk.1
    · rename_i h; exact absurd h hk.2
    · rfl
  · rw [if_pos h1, inclusion_remove_append h3]; rfl

theorem seg_leaf {m : List IncField} {F : List (List Nat)} (ha : Answers m F) (hF : ∀ f ∈ F, f ≠ []) {parent : Nat} {s s' : ESt}
    {tag sub : Nat} {value d : Bytes} {t : BufType} (h8 : tag ≠ 0) (hkind : kindOf (⟨parent, tag⟩, sub) = .leaf)
    (ht : t = typeOf ⟨parent, tag⟩)
    (htags : s'.tags = (findOrAppend s.tags (⟨parent, tag⟩, sub)).1) (hnodes : s.nodes <+: s'.nodes)
    (hnr : s'.numRecords = s.numRecords) (hds : s'.decodedDataSize = s.decodedDataSize) (hlens : s'.lens = s.lens)
    (henc : s'.enc = (findOrAppend s.tags (⟨parent, tag⟩, sub)).2 :: s.enc)
    (hdata : s'.data = (s.write t ⟨parent, tag⟩ d).data ∨ (d = [] ∧ s'.data = s.data))
    (hop : ∀ data lens D L S, aop (⟨parent, tag⟩, sub)
      ⟨setData data ⟨parent, tag⟩ (d ++ data ⟨parent, tag⟩), lens, D, L, S⟩ =
        some ⟨data, lens, writeVarint tag ++ value ++ D, L, S⟩) :
    Seg m F parent s s' (leafOut F tag value) := by
  have hf := findOrAppend_spec s.tags (⟨parent, tag⟩, sub)
  refine ⟨by rw [htags]; exact hf.1, hnodes, hnr, hds, hlens, [(findOrAppend s.tags (⟨parent, tag⟩, sub)).2], henc, ?_⟩
  intro T P hT hP D L S k hat
  rw [htags] at hT
  have hTe := getElem?_prefix hT hf.2.1
  simp only [List.filterMap_cons, hTe, List.filterMap_nil, prun]
  have hon := online_at ha hF (a := ⟨projData F P s', s'.lens, D, L, S, k⟩) hat (op := (⟨parent, tag⟩, sub))
    (by rw [hkind]; exact ⟨by simp, by simp⟩)
  have hinc : incOf F P (⟨parent, tag⟩, sub) = ofInclusion (inclusion F (P parent ++ [fieldNumber tag])) := by
    unfold incOf; rw [hkind]
  have hsame : ¬ keepsData F P ⟨parent, tag⟩ → projData F P s' = projData F P s := by
    intro hk
    rcases hdata with h | ⟨_, h⟩
    · exact projData_drop h ht hk
    · exact projData_congr h
  unfold pop
  rw [if_neg h8, hon, hinc, if_neg (by simp)]
  unfold pstep
  rw [hkind]
  simp only
  unfold leafOut
  cases hi : inclusion F (P parent ++ [fieldNumber tag]) with
  | keep =>
    have hkd : keepsData F P ⟨parent, tag⟩ := Or.inr hi
    have hk0 : k = 0 := by
      rcases hat with ⟨h, _⟩ | ⟨_, _, h3⟩
      · exact h
      · rw [inclusion_remove_append h3] at hi; cases hi
    have hpd : projData F P s' = setData (projData F P s) ⟨parent, tag⟩ (d ++ projData F P s ⟨parent, tag⟩) := by
      rcases hdata with h | ⟨rfl, h⟩
      · exact projData_keep h ht hkd
      · rw [projData_congr h, List.nil_append, setData_self]
    simp only [ofInclusion, PSt.toA]
    rw [hpd, hop]
    simp only [Option.map_some, ASt.toP, Option.bind_some, hk0, if_true, hlens]
  | clear =>
    have hk0 : k = 0 := by
      rcases hat with ⟨h, _⟩ | ⟨_, _, h3⟩
      · exact h
      · rw [inclusion_remove_append h3] at hi; cases hi
    simp only [ofInclusion, Option.bind_some, hk0, if_true]
    rw [hsame (by rintro (h | h); exact h8 h; rw [hi] at h; cases h), hlens]
  | remove =>
    simp only [ofInclusion, Option.bind_some]
    rw [hsame (by rintro (h | h); exact h8 h; rw [hi] at h; cases h), hlens]
    simp

end Riegeli.Tr

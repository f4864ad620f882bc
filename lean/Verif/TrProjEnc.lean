import Verif.TrProj
/-!
# Transposed chunks: decoding the tags of records with projection produces the projected records
-/
namespace Riegeli.Tr
open Riegeli.Proj

theorem fieldNumber_tag {n k : Nat} (hk : k < 8) : fieldNumber (8 * n + k) = n := by unfold fieldNumber; omega
theorem wireType_tag {n k : Nat} (hk : k < 8) : wireType (8 * n + k) = k := by unfold wireType; omega

theorem fieldNumber_tag0 {n : Nat} : fieldNumber (8 * n) = n := by unfold fieldNumber; omega
theorem wireType_tag0 {n : Nat} : wireType (8 * n) = 0 := by unfold wireType; omega

theorem getNode_prefix (s : ESt) (id : NodeId) : s.nodes <+: (s.getNode id).1.nodes := (findOrAppend_spec s.nodes id).1

/-- A varint field. -/
theorem seg_varint {m : List IncField} {F : List (List Nat)} (ha : Answers m F) (hF : ∀ f ∈ F, f ≠ []) (parent : Nat) (s : ESt)
    {n v : Nat} (hn : 0 < n) (hv : v < 2 ^ 64) :
    Seg m F parent s (encVarint s ⟨parent, 8 * n⟩ v) (leafOut F (8 * n) (writeVarint v)) := by
  have hw : wireType (8 * n) = 0 := wireType_tag0
  have h0 : (8 * n) ≠ 0 := by omega
  have hkind : ∀ sub, kindOf (⟨parent, 8 * n⟩, sub) = .leaf := by intro sub; simp [kindOf, hw]
  obtain ⟨hiv, _⟩ := writeVarint_spec v
  have h10 := (copyVarint_spec (writeVarint_copy hv true [])).2.2.2
  have hvl : 0 < (writeVarint v).length := List.length_pos_iff.2 (writeVarint_ne_nil v)
  unfold encVarint
  split
  · rename_i hin
    unfold kMaxVarintInline at hin
    refine seg_leaf ha hF (t := .varint) (d := []) h0 (hkind _) (by simp [typeOf, hw, h0]) rfl (getNode_prefix s _) rfl rfl rfl rfl
      (Or.inr ⟨rfl, rfl⟩) ?_
    intro data lens D L S
    have hvv := isVarint_head hiv (by omega)
    unfold aop
    simp only [h0, if_false, hw]
    rw [if_pos (by omega), List.nil_append, setData_self]
    simp only [Nat.add_sub_cancel_left, UInt8.ofNat_toNat]
    rw [← hvv]
  · refine seg_leaf ha hF (t := .varint) h0 (hkind _) (by simp [typeOf, hw, h0]) rfl (getNode_prefix s _) rfl rfl rfl rfl
      (Or.inl rfl) ?_
    intro data lens D L S
    have hcl : (clearHigh (writeVarint v)).length = (writeVarint v).length := by simp [clearHigh]
    unfold aop
    simp only [h0, if_false, hw, setData_same]
    rw [if_neg (by unfold kVarintInline0; omega), if_neg (by simp only [List.length_append, hcl]; omega)]
    rw [show (writeVarint v).length - 1 + 1 = (clearHigh (writeVarint v)).length by omega, List.take_left, List.drop_left,
      maskBuffer_clearHigh hiv, setData_setData, setData_self]

/-- A fixed-size field. -/
theorem seg_fixed {m : List IncField} {F : List (List Nat)} (ha : Answers m F) (hF : ∀ f ∈ F, f ≠ []) (parent : Nat) (s : ESt)
    {n k len : Nat} {v : Bytes} {t : BufType} (hn : 0 < n) (hv : v.length = len)
    (hk : (k = 5 ∧ len = 4 ∧ t = .fixed32) ∨ (k = 1 ∧ len = 8 ∧ t = .fixed64)) :
    Seg m F parent s (((s.getNode ⟨parent, 8 * n + k⟩).1.pushTag ⟨parent, 8 * n + k⟩ 0).write t ⟨parent, 8 * n + k⟩ v)
      (leafOut F (8 * n + k) v) := by
  have hw : wireType (8 * n + k) = k := wireType_tag (by omega)
  have h0 : (8 * n + k) ≠ 0 := by omega
  refine seg_leaf ha hF (t := t) h0 ?_ ?_ rfl (getNode_prefix s _) rfl rfl rfl rfl (Or.inl rfl) ?_
  · rcases hk with ⟨rfl, _⟩ | ⟨rfl, _⟩ <;> simp [kindOf, hw]
  · rcases hk with ⟨rfl, _, rfl⟩ | ⟨rfl, _, rfl⟩ <;> simp [typeOf, hw]
  · intro data lens D L S
    unfold aop
    simp only [h0, if_false, hw, setData_same]
    rcases hk with ⟨rfl, rfl, _⟩ | ⟨rfl, rfl, _⟩
    · simp only
      rw [if_neg (by simp only [List.length_append, hv]; omega), List.take_left' hv, List.drop_left' hv, setData_setData,
        setData_self]
    · simp only
      rw [if_neg (by simp only [List.length_append, hv]; omega), List.take_left' hv, List.drop_left' hv, setData_setData,
        setData_self]

/-- A field with bytes. -/
theorem seg_bytes {m : List IncField} {F : List (List Nat)} (ha : Answers m F) (hF : ∀ f ∈ F, f ≠ []) (parent : Nat) (s : ESt)
    {n : Nat} {v : Bytes} (hn : 0 < n) (hv : (writeVarint v.length ++ v).length < 2 ^ 32) :
    Seg m F parent s (((s.getNode ⟨parent, 8 * n + 2⟩).1.pushTag ⟨parent, 8 * n + 2⟩ kString).write .string ⟨parent, 8 * n + 2⟩
      (writeVarint v.length ++ v)) (leafOut F (8 * n + 2) (writeVarint v.length ++ v)) := by
  have hw : wireType (8 * n + 2) = 2 := wireType_tag (by omega)
  have h0 : (8 * n + 2) ≠ 0 := by omega
  refine seg_leaf ha hF (t := .string) h0 (by simp [kindOf, hw]) (by simp [typeOf, hw]) rfl (getNode_prefix s _) rfl rfl rfl rfl
    (Or.inl rfl) ?_
  intro data lens D L S
  rw [List.length_append] at hv
  unfold aop
  simp only [h0, if_false, hw, setData_same, if_true]
  rw [List.append_assoc, readVarint_write (by omega) (by omega)]
  simp only
  generalize hX : data ⟨parent, 8 * n + 2⟩ = X
  have e : (writeVarint v.length ++ (v ++ X)).length - (v ++ X).length + v.length = (writeVarint v.length ++ v).length := by
    simp only [List.length_append]; omega
  have e2 : (writeVarint v.length ++ (v ++ X)).length - (v ++ X).length = (writeVarint v.length).length := by
    simp only [List.length_append]; omega
  rw [e, e2, if_neg (by omega), if_neg (by simp only [List.length_append]; omega), ← List.append_assoc, List.take_left' rfl,
    List.drop_left' rfl, setData_setData, ← hX, setData_self]

/-- The output for a submessage. -/
def messageOut (F : List (List Nat)) (tag : Nat) (body : List Nat → Bytes) (p : List Nat) : Bytes :=
  if inclusion F (p ++ [fieldNumber tag]) = .remove then []
  else writeVarint tag ++ writeVarint (body (p ++ [fieldNumber tag])).length ++ body (p ++ [fieldNumber tag])

/-- The output for a group. -/
def groupOut (F : List (List Nat)) (n : Nat) (body : List Nat → Bytes) (p : List Nat) : Bytes :=
  if inclusion F (p ++ [n]) = .remove then []
  else writeVarint (8 * n + 3) ++ body (p ++ [n]) ++ writeVarint (8 * n + 4)

theorem ofInclusion_no {i : Inclusion} : ofInclusion i = .no ↔ i = .remove := by cases i <;> simp [ofInclusion]

theorem nums_cons (x : Nat × Nat) (S : List (Nat × Nat)) : nums (x :: S) = nums S ++ [fieldNumber x.2] := by
  simp [nums]

theorem At.enter {F : List (List Nat)} {p : List Nat} {S : List (Nat × Nat)} {k : Nat} (h : At F p S k) {n pos tag : Nat}
    (ht : fieldNumber tag = n) (hi : inclusion F (p ++ [n]) ≠ .remove) : At F (p ++ [n]) ((pos, tag) :: S) k := by
  rcases h with ⟨h1, h2, _⟩ | ⟨_, _, h3⟩
  · exact Or.inl ⟨h1, by rw [nums_cons, h2, ← ht], Or.inr hi⟩
  · exact absurd (inclusion_remove_append h3 _) hi

theorem At.skip {F : List (List Nat)} {p : List Nat} {S : List (Nat × Nat)} {k n : Nat}
    (hi : inclusion F (p ++ [n]) = .remove) : At F (p ++ [n]) S (k + 1) :=
  Or.inr ⟨by omega, by simp, hi⟩

theorem At.zero {F : List (List Nat)} {p : List Nat} {S : List (Nat × Nat)} {k n : Nat} (h : At F p S k)
    (hi : inclusion F (p ++ [n]) ≠ .remove) : k = 0 := by
  rcases h with ⟨h1, _⟩ | ⟨_, _, h3⟩
  · exact h1
  · exact absurd (inclusion_remove_append h3 _) hi

/-- A submessage. -/
theorem seg_message {m : List IncField} {F : List (List Nat)} (ha : Answers m F) (hF : ∀ f ∈ F, f ≠ []) (parent : Nat) (s s2 : ESt)
    {n : Nat} (hn : 0 < n) {body : List Nat → Bytes} (hb : ∀ p, (body p).length < 2 ^ 32)
    (h : Seg m F (s.getNode ⟨parent, 8 * n + 2⟩).2
      (((s.getNode ⟨parent, 8 * n + 2⟩).1.pushTag ⟨parent, 8 * n + 2⟩ kSubStart).getPos ⟨parent, 8 * n + 2⟩ kSubEnd).1 s2 body) :
    Seg m F parent s
      (s2.push (((s.getNode ⟨parent, 8 * n + 2⟩).1.pushTag ⟨parent, 8 * n + 2⟩ kSubStart).getPos ⟨parent, 8 * n + 2⟩ kSubEnd).2)
      (messageOut F (8 * n + 2) body) := by
  generalize hid : (⟨parent, 8 * n + 2⟩ : NodeId) = id at *
  have hidp : id.parent = parent := by rw [← hid]
  have hidt : id.tag = 8 * n + 2 := by rw [← hid]
  have hw : wireType id.tag = 2 := by rw [hidt]; exact wireType_tag (by omega)
  have hfn : fieldNumber id.tag = n := by rw [hidt]; exact fieldNumber_tag (by omega)
  have h0 : id.tag ≠ 0 := by omega
  have hf1 := findOrAppend_spec s.tags (id, kSubStart)
  have hf2 := findOrAppend_spec (findOrAppend s.tags (id, kSubStart)).1 (id, kSubEnd)
  have hf3 := findOrAppend_spec s.nodes id
  obtain ⟨a1, a2, a3, a4, a5, new, a6, a7⟩ := h
  refine ⟨(hf1.1.trans hf2.1).trans a1, hf3.1.trans a2, a3, a4, a5,
    [(findOrAppend (findOrAppend s.tags (id, kSubStart)).1 (id, kSubEnd)).2] ++ new ++ [(findOrAppend s.tags (id, kSubStart)).2],
    ?_, ?_⟩
  · show _ :: s2.enc = _
    rw [a6]
    simp [ESt.getPos, ESt.pushTag, ESt.push, ESt.getNode]
  intro T P hT hP D L S k hat
  have hT' : s2.tags <+: T := hT
  have hP' : Paths P s2.nodes := hP
  have hT1 : T[(findOrAppend s.tags (id, kSubStart)).2]? = some (id, kSubStart) :=
    getElem?_prefix ((hf2.1.trans a1).trans hT') hf1.2.1
  have hT2 : T[(findOrAppend (findOrAppend s.tags (id, kSubStart)).1 (id, kSubEnd)).2]? = some (id, kSubEnd) :=
    getElem?_prefix (a1.trans hT') hf2.2.1
  have hPid : P (s.getNode id).2 = P parent ++ [n] := by
    have := hP'.node _ id (getElem?_prefix a2 hf3.2.1)
    rw [hidp, hfn] at this
    exact this
  have hk1 : kindOf (id, kSubEnd) = .subEnd := by simp [kindOf, hw, kSubEnd, kString, kSubStart]
  have hk2 : kindOf (id, kSubStart) = .subStart := by simp [kindOf, hw, kString, kSubStart]
  have hon := fun d l => online_at ha hF (a := ⟨d, l, D, L, S, k⟩) hat (op := (id, kSubEnd))
    (by rw [hk1]; exact ⟨by simp, by simp⟩)
  simp only [hfn] at hon
  have hinc1 : incOf F P (id, kSubEnd) = ofInclusion (inclusion F (P parent ++ [n])) := by
    unfold incOf; rw [hk1]; simp only [hidp, hfn]
  have hinc2 : incOf F P (id, kSubStart) = if inclusion F (P parent ++ [n]) = .remove then .no else .yes := by
    unfold incOf; rw [hk2]; simp only [hidp, hfn]
  have hpd0 : projData F P (s2.push (((s.getNode id).1.pushTag id kSubStart).getPos id kSubEnd).2) = projData F P s2 :=
    projData_congr rfl
  have hpd1 : projData F P (((s.getNode id).1.pushTag id kSubStart).getPos id kSubEnd).1 = projData F P s := projData_congr rfl
  have hbody := a7 T P hT' hP'
  rw [hPid, hpd1] at hbody
  rw [List.filterMap_append, List.filterMap_append, prun_append, prun_append]
  simp only [List.filterMap_cons, hT1, hT2, List.filterMap_nil]
  have hl : ∀ x : ESt, ∀ y, (x.push y).lens = x.lens := fun _ _ => rfl
  have hstep1 : ∀ a : PSt, prun m (incOf F P) [(id, kSubEnd)] a = pop m (incOf F P) (id, kSubEnd) a := by
    intro a; simp [prun]
  have hstep2 : ∀ a : PSt, prun m (incOf F P) [(id, kSubStart)] a = pop m (incOf F P) (id, kSubStart) a := by
    intro a; simp [prun]
  rw [hstep1, hpd0, hl]
  by_cases hi : inclusion F (P parent ++ [n]) = .remove
  · have e1 : pop m (incOf F P) (id, kSubEnd) ⟨projData F P s2, s2.lens, D, L, S, k⟩ =
        some ⟨projData F P s2, s2.lens, D, L, S, k + 1⟩ := by
      unfold pop
      rw [if_neg h0, hon, hinc1, if_neg (by simp)]
      unfold pstep
      simp only [hk1, hi, ofInclusion, if_true]
    rw [e1, Option.bind_some, hbody D L S (k + 1) (At.skip hi), Option.bind_some, hstep2]
    unfold pop
    rw [if_neg h0]
    have e2 : online m ⟨projData F P s, (((s.getNode id).1.pushTag id kSubStart).getPos id kSubEnd).1.lens,
        (if k + 1 = 0 then body (P parent ++ [n]) else []) ++ D, L, S, k + 1⟩ (id, kSubStart) = .no := by
      unfold online; rw [if_pos (by show k + 1 > 0; omega)]
    rw [e2, hinc2, if_pos hi, if_neg (by simp)]
    unfold pstep
    simp only [hk2, if_true]
    rw [if_neg (by omega)]
    unfold messageOut
    rw [← hidt, hfn, if_pos hi]
    simp
    rfl
  · have hk0 := hat.zero hi
    have e1 : pop m (incOf F P) (id, kSubEnd) ⟨projData F P s2, s2.lens, D, L, S, k⟩ =
        some ⟨projData F P s2, s2.lens, D, L, (D.length, id.tag) :: S, k⟩ := by
      unfold pop
      rw [if_neg h0, hon, hinc1, if_neg (by simp)]
      unfold pstep
      simp only [hk1, ofInclusion_no, hi, if_false]
    rw [e1, Option.bind_some, hbody D L ((D.length, id.tag) :: S) k (hat.enter hfn hi), Option.bind_some, hstep2]
    subst hk0
    unfold pop
    rw [if_neg h0]
    have e2 : online m ⟨projData F P s, (((s.getNode id).1.pushTag id kSubStart).getPos id kSubEnd).1.lens,
        (if 0 = 0 then body (P parent ++ [n]) else []) ++ D, L, (D.length, id.tag) :: S, 0⟩ (id, kSubStart) = .yes := by
      unfold online; rw [if_neg (by simp), hk2]
    rw [e2, hinc2, if_neg hi, if_neg (by simp)]
    unfold pstep
    have hbl := hb (P parent ++ [n])
    simp only [hk2, if_true, List.length_append, Nat.add_sub_cancel, reduceCtorEq, if_false]
    rw [if_neg (by omega)]
    unfold messageOut
    rw [← hidt, hfn, if_neg hi]
    simp
    rfl

/-- A group. -/
theorem seg_group {m : List IncField} {F : List (List Nat)} (ha : Answers m F) (hF : ∀ f ∈ F, f ≠ []) (parent : Nat) (s s2 : ESt)
    {n : Nat} {body : List Nat → Bytes}
    (h : Seg m F (s.getNode ⟨parent, 8 * n + 3⟩).2 ((s.getNode ⟨parent, 8 * n + 3⟩).1.pushTag ⟨parent, 8 * n + 3⟩ 0) s2 body) :
    Seg m F parent s
      ((s2.getNode ⟨(s.getNode ⟨parent, 8 * n + 3⟩).2, 8 * n + 4⟩).1.pushTag ⟨(s.getNode ⟨parent, 8 * n + 3⟩).2, 8 * n + 4⟩ 0)
      (groupOut F n body) := by
  generalize hid : (⟨parent, 8 * n + 3⟩ : NodeId) = id at *
  have hidp : id.parent = parent := by rw [← hid]
  have hidt : id.tag = 8 * n + 3 := by rw [← hid]
  have hw : wireType id.tag = 3 := by rw [hidt]; exact wireType_tag (by omega)
  have hfn : fieldNumber id.tag = n := by rw [hidt]; exact fieldNumber_tag (by omega)
  have h0 : id.tag ≠ 0 := by omega
  generalize hend : (⟨(s.getNode id).2, 8 * n + 4⟩ : NodeId) = eid at *
  have hep : eid.parent = (s.getNode id).2 := by rw [← hend]
  have het : eid.tag = 8 * n + 4 := by rw [← hend]
  have hew : wireType eid.tag = 4 := by rw [het]; exact wireType_tag (by omega)
  have hefn : fieldNumber eid.tag = n := by rw [het]; exact fieldNumber_tag (by omega)
  have he0 : eid.tag ≠ 0 := by omega
  have hf1 := findOrAppend_spec s.tags (id, 0)
  have hf2 := findOrAppend_spec s2.tags (eid, 0)
  have hf3 := findOrAppend_spec s.nodes id
  have hf4 := findOrAppend_spec s2.nodes eid
  obtain ⟨a1, a2, a3, a4, a5, new, a6, a7⟩ := h
  refine ⟨(hf1.1.trans a1).trans hf2.1, (hf3.1.trans a2).trans hf4.1, a3, a4, a5,
    [(findOrAppend s2.tags (eid, 0)).2] ++ new ++ [(findOrAppend s.tags (id, 0)).2], ?_, ?_⟩
  · show _ :: s2.enc = _
    rw [a6]
    simp [ESt.pushTag, ESt.push, ESt.getPos, ESt.getNode]
  intro T P hT hP D L S k hat
  have hT' : (findOrAppend s2.tags (eid, 0)).1 <+: T := hT
  have hP' : Paths P s2.nodes := Paths.mono hf4.1 hP
  have hT1 : T[(findOrAppend s.tags (id, 0)).2]? = some (id, 0) := getElem?_prefix ((a1.trans hf2.1).trans hT') hf1.2.1
  have hT2 : T[(findOrAppend s2.tags (eid, 0)).2]? = some (eid, 0) := getElem?_prefix hT' hf2.2.1
  have hPid : P (s.getNode id).2 = P parent ++ [n] := by
    have := hP'.node _ id (getElem?_prefix a2 hf3.2.1)
    rw [hidp, hfn] at this
    exact this
  have hk1 : kindOf (eid, 0) = .groupEnd := by simp [kindOf, hew]
  have hk2 : kindOf (id, 0) = .groupStart := by simp [kindOf, hw]
  have hon := fun d l => online_at ha hF (a := ⟨d, l, D, L, S, k⟩) hat (op := (eid, 0))
    (by rw [hk1]; exact ⟨by simp, by simp⟩)
  simp only [hefn] at hon
  have hinc1 : incOf F P (eid, 0) = ofInclusion (inclusion F (P parent ++ [n])) := by
    unfold incOf; rw [hk1]; simp only [hep, hPid]
  have hinc2 : incOf F P (id, 0) = if inclusion F (P parent ++ [n]) = .remove then .no else .yes := by
    unfold incOf; rw [hk2]; simp only [hidp, hfn]
  have hpd0 : projData F P ((s2.getNode eid).1.pushTag eid 0) = projData F P s2 := projData_congr rfl
  have hpd1 : projData F P ((s.getNode id).1.pushTag id 0) = projData F P s := projData_congr rfl
  have hbody := a7 T P (hf2.1.trans hT') hP'
  rw [hPid, hpd1] at hbody
  rw [List.filterMap_append, List.filterMap_append, prun_append, prun_append]
  simp only [List.filterMap_cons, hT1, hT2, List.filterMap_nil]
  have hl : ∀ x : ESt, ((x.getNode eid).1.pushTag eid 0).lens = x.lens := fun _ => rfl
  have hstep : ∀ op, ∀ a : PSt, prun m (incOf F P) [op] a = pop m (incOf F P) op a := by
    intro op a; simp [prun]
  rw [hstep, hpd0, hl]
  by_cases hi : inclusion F (P parent ++ [n]) = .remove
  · have e1 : pop m (incOf F P) (eid, 0) ⟨projData F P s2, s2.lens, D, L, S, k⟩ =
        some ⟨projData F P s2, s2.lens, D, L, S, k + 1⟩ := by
      unfold pop
      rw [if_neg he0, hon, hinc1, if_neg (by simp)]
      unfold pstep
      simp only [hk1, hi, ofInclusion, if_true]
    rw [e1, Option.bind_some, hbody D L S (k + 1) (At.skip hi), Option.bind_some, hstep]
    unfold pop
    rw [if_neg h0]
    have e2 : online m ⟨projData F P s, ((s.getNode id).1.pushTag id 0).lens,
        (if k + 1 = 0 then body (P parent ++ [n]) else []) ++ D, L, S, k + 1⟩ (id, 0) = .no := by
      unfold online; rw [if_pos (by show k + 1 > 0; omega)]
    rw [e2, hinc2, if_pos hi, if_neg (by simp)]
    unfold pstep
    simp only [hk2, if_true]
    rw [if_neg (by omega)]
    unfold groupOut
    rw [if_pos hi]
    simp
    rfl
  · have hk0 := hat.zero hi
    have e1 : pop m (incOf F P) (eid, 0) ⟨projData F P s2, s2.lens, D, L, S, k⟩ =
        some ⟨projData F P s2, s2.lens, writeVarint eid.tag ++ D, L, (D.length, eid.tag) :: S, k⟩ := by
      unfold pop
      rw [if_neg he0, hon, hinc1, if_neg (by simp)]
      unfold pstep
      simp only [hk1, ofInclusion_no, hi, if_false]
    have hat' := hat.enter (pos := D.length) hefn hi
    rw [e1, Option.bind_some, hbody (writeVarint eid.tag ++ D) L ((D.length, eid.tag) :: S) k hat', Option.bind_some, hstep]
    subst hk0
    have hnum : nums ((D.length, eid.tag) :: S) = P parent ++ [n] := by
      rcases hat' with ⟨_, h2, _⟩ | ⟨h1, _⟩
      · exact h2
      · omega
    unfold pop
    rw [if_neg h0]
    have e2 : online m ⟨projData F P s, ((s.getNode id).1.pushTag id 0).lens,
        (if 0 = 0 then body (P parent ++ [n]) else []) ++ (writeVarint eid.tag ++ D), L, (D.length, eid.tag) :: S, 0⟩ (id, 0)
        = .yes := by
      unfold online
      rw [if_neg (by simp), hk2]
      simp only [hnum]
      have := walk_spec ha (P parent ++ [n]) [] none (by simp) rfl (no_full_nil hF)
      rw [List.nil_append] at this
      rw [if_neg (fun hh => hi (this.1 hh))]
    rw [e2, hinc2, if_neg hi, if_neg (by simp)]
    unfold pstep
    simp only [hk2, if_true, reduceCtorEq, if_false]
    unfold groupOut
    rw [if_neg hi, ← hidt, ← het]
    simp
    rfl

/-! ## Messages -/

/-- Projection does not make messages longer. -/
theorem writeVarint_length_mono : ∀ {x y : Nat}, x ≤ y → (writeVarint x).length ≤ (writeVarint y).length := by
  intro x
  induction x using Nat.strongRecOn with
  | _ x ih =>
    intro y h
    by_cases hx : x < 128
    · rw [writeVarint_small hx]
      have := List.length_pos_iff.2 (writeVarint_ne_nil y)
      simp only [List.length_cons, List.length_nil]
      omega
    · rw [writeVarint_big (by omega), writeVarint_big (x := y) (by omega)]
      have := ih (x / 128) (by omega) (y := y / 128) (by omega)
      simp only [List.length_cons]
      omega

theorem project_length (F : List (List Nat)) : ∀ (m : Msg), m.Valid → ∀ (p : List Nat),
    (m.project F p).ser.length ≤ m.ser.length := by
  intro m
  induction m with
  | nil => intro _ p; exact Nat.le_refl _
  | varint n v rest ih =>
    intro hv p
    have h := ih hv.2.2 p
    have h0 := writeVarint_length_mono (Nat.zero_le v)
    unfold Msg.project
    split <;> simp only [Msg.ser, List.length_append] <;> omega
  | fixed32 n v rest ih =>
    intro hv p
    have h := ih hv.2.2 p
    have hl := hv.2.1
    unfold Msg.project
    split <;> simp only [Msg.ser, List.length_append, List.length_replicate] <;> omega
  | fixed64 n v rest ih =>
    intro hv p
    have h := ih hv.2.2 p
    have hl := hv.2.1
    unfold Msg.project
    split <;> simp only [Msg.ser, List.length_append, List.length_replicate] <;> omega
  | bytes n v rest ih =>
    intro hv p
    have h := ih hv.2.2 p
    have h0 := writeVarint_length_mono (Nat.zero_le v.length)
    unfold Msg.project
    split <;> simp only [Msg.ser, List.length_append, List.length_nil] <;> omega
  | message n body rest ihb ih =>
    intro hv p
    have h := ih hv.2.2.2 p
    have hb := ihb hv.2.2.1 (p ++ [n])
    have h0 := writeVarint_length_mono hb
    unfold Msg.project
    split <;> simp only [Msg.ser, List.length_append] <;> omega
  | group n body rest ihb ih =>
    intro hv p
    have h := ih hv.2.2 p
    have hb := ihb hv.2.1 (p ++ [n])
    unfold Msg.project
    split <;> simp only [Msg.ser, List.length_append] <;> omega

/-- Decoding the tags of a message with projection gives the projected message. -/
theorem encMsg_proj {m : List IncField} {F : List (List Nat)} (ha : Answers m F) (hF : ∀ f ∈ F, f ≠ []) :
    ∀ (x : Msg) (s : ESt) (parent : Nat), x.Valid → x.ser.length < 2 ^ 32 →
    Seg m F parent s (encMsg s parent x) (fun p => (x.project F p).ser) := by
  intro x
  induction x with
  | nil => intro s parent _ _; exact Seg.refl _ _ _ _
  | varint n v rest ih =>
    intro s parent hv hl
    rw [Msg.ser] at hl
    simp only [List.length_append] at hl
    rw [encMsg]
    refine ((seg_varint ha hF parent s hv.1.1 hv.2.1).trans (ih _ parent hv.2.2 (by omega))).congr ?_
    intro p
    simp only [leafOut, Msg.project]
    rw [fieldNumber_tag0]
    cases inclusion F (p ++ [n]) <;> simp [Msg.ser, cleared, wireType_tag0]
    rw [writeVarint_small (by omega)]; rfl
  | fixed32 n v rest ih =>
    intro s parent hv hl
    rw [Msg.ser] at hl
    simp only [List.length_append] at hl
    rw [encMsg]
    refine ((seg_fixed ha hF parent s hv.1.1 hv.2.1 (Or.inl ⟨rfl, rfl, rfl⟩)).trans (ih _ parent hv.2.2 (by omega))).congr ?_
    intro p
    simp only [leafOut, Msg.project]
    rw [fieldNumber_tag (by omega)]
    cases inclusion F (p ++ [n]) <;> simp [Msg.ser, cleared, wireType_tag (show 5 < 8 by omega)]
  | fixed64 n v rest ih =>
    intro s parent hv hl
    rw [Msg.ser] at hl
    simp only [List.length_append] at hl
    rw [encMsg]
    refine ((seg_fixed ha hF parent s hv.1.1 hv.2.1 (Or.inr ⟨rfl, rfl, rfl⟩)).trans (ih _ parent hv.2.2 (by omega))).congr ?_
    intro p
    simp only [leafOut, Msg.project]
    rw [fieldNumber_tag (by omega)]
    cases inclusion F (p ++ [n]) <;> simp [Msg.ser, cleared, wireType_tag (show 1 < 8 by omega)]
  | bytes n v rest ih =>
    intro s parent hv hl
    rw [Msg.ser] at hl
    simp only [List.length_append] at hl
    rw [encMsg]
    refine ((seg_bytes ha hF parent s hv.1.1 (by rw [List.length_append]; omega)).trans (ih _ parent hv.2.2 (by omega))).congr ?_
    intro p
    simp only [leafOut, Msg.project]
    rw [fieldNumber_tag (by omega)]
    cases inclusion F (p ++ [n]) <;> simp [Msg.ser, cleared, wireType_tag (show 2 < 8 by omega)]
    rw [writeVarint_small (by omega)]; rfl
  | message n body rest ihb ih =>
    intro s parent hv hl
    rw [Msg.ser] at hl
    simp only [List.length_append] at hl
    rw [encMsg]
    refine ((seg_message ha hF parent s _ hv.1.1 (body := fun p => (body.project F p).ser)
      (fun p => Nat.lt_of_le_of_lt (project_length F body hv.2.2.1 p) hv.2.1)
      (ihb _ _ hv.2.2.1 hv.2.1)).trans (ih _ parent hv.2.2.2 (by omega))).congr ?_
    intro p
    simp only [messageOut, Msg.project]
    rw [fieldNumber_tag (by omega)]
    cases inclusion F (p ++ [n]) <;> simp [Msg.ser]
  | group n body rest ihb ih =>
    intro s parent hv hl
    rw [Msg.ser] at hl
    simp only [List.length_append] at hl
    rw [encMsg]
    refine ((seg_group ha hF parent s _ (body := fun p => (body.project F p).ser)
      (ihb _ _ hv.2.1 (by omega))).trans (ih _ parent hv.2.2 (by omega))).congr ?_
    intro p
    simp only [groupOut, Msg.project]
    cases inclusion F (p ++ [n]) <;> simp [Msg.ser]

/-! ## Message ids -/

theorem parentsOk_getNode {s : ESt} (h : ParentsOk s.nodes) {id : NodeId} (hp : id.parent < kRoot + 1 + s.nodes.length) :
    ParentsOk (s.getNode id).1.nodes ∧ (s.getNode id).2 < kRoot + 1 + (s.getNode id).1.nodes.length := by
  have hf := findOrAppend_spec s.nodes id
  constructor
  · intro i x hx
    have hx' : (findOrAppend s.nodes id).1[i]? = some x := hx
    unfold findOrAppend at hx'
    split at hx'
    · exact h i x hx'
    · by_cases hi : i < s.nodes.length
      · rw [List.getElem?_append_left hi] at hx'
        exact h i x hx'
      · rw [List.getElem?_append_right (by omega)] at hx'
        have := (List.getElem?_eq_some_iff.1 hx').1
        simp only [List.length_singleton] at this
        have hi2 : i = s.nodes.length := by omega
        subst hi2
        simp at hx'
        subst hx'
        exact hp
  · have := (List.getElem?_eq_some_iff.1 hf.2.1).1
    show kRoot + 1 + (findOrAppend s.nodes id).2 < kRoot + 1 + (findOrAppend s.nodes id).1.length
    omega

theorem encVarint_nodes (s : ESt) (id : NodeId) (v : Nat) : (encVarint s id v).nodes = (s.getNode id).1.nodes := by
  unfold encVarint; split <;> rfl

theorem encMsg_nodes : ∀ (x : Msg) (s : ESt) (parent : Nat), ParentsOk s.nodes → parent < kRoot + 1 + s.nodes.length →
    ParentsOk (encMsg s parent x).nodes ∧ s.nodes.length ≤ (encMsg s parent x).nodes.length := by
  have key : ∀ (s : ESt) (id : NodeId), s.nodes.length ≤ (s.getNode id).1.nodes.length :=
    fun s id => (getNode_prefix s id).length_le
  have leaf : ∀ (s s1 : ESt) (id : NodeId) (rest : Msg), s1.nodes = (s.getNode id).1.nodes → ParentsOk s.nodes →
      id.parent < kRoot + 1 + s.nodes.length →
      (∀ (s : ESt) (parent : Nat), ParentsOk s.nodes → parent < kRoot + 1 + s.nodes.length →
        ParentsOk (encMsg s parent rest).nodes ∧ s.nodes.length ≤ (encMsg s parent rest).nodes.length) →
      ParentsOk (encMsg s1 id.parent rest).nodes ∧ s.nodes.length ≤ (encMsg s1 id.parent rest).nodes.length := by
    intro s s1 id rest h1 hs hp ih
    have hk := key s id
    have := ih s1 id.parent (by rw [h1]; exact (parentsOk_getNode hs hp).1) (by rw [h1]; omega)
    rw [h1] at this
    exact ⟨this.1, by omega⟩
  intro x
  induction x with
  | nil => intro s parent hs _; exact ⟨hs, Nat.le_refl _⟩
  | varint n v rest ih => intro s parent hs hp; rw [encMsg]; exact leaf s _ ⟨parent, 8 * n⟩ rest (encVarint_nodes _ _ _) hs hp ih
  | fixed32 n v rest ih => intro s parent hs hp; rw [encMsg]; exact leaf s _ ⟨parent, 8 * n + 5⟩ rest rfl hs hp ih
  | fixed64 n v rest ih => intro s parent hs hp; rw [encMsg]; exact leaf s _ ⟨parent, 8 * n + 1⟩ rest rfl hs hp ih
  | bytes n v rest ih => intro s parent hs hp; rw [encMsg]; exact leaf s _ ⟨parent, 8 * n + 2⟩ rest rfl hs hp ih
  | message n body rest ihb ih =>
    intro s parent hs hp
    rw [encMsg]
    have h1 := parentsOk_getNode hs (id := ⟨parent, 8 * n + 2⟩) hp
    have hk := key s ⟨parent, 8 * n + 2⟩
    have h2 := ihb (((s.getNode ⟨parent, 8 * n + 2⟩).1.pushTag ⟨parent, 8 * n + 2⟩ kSubStart).getPos ⟨parent, 8 * n + 2⟩ kSubEnd).1
      (s.getNode ⟨parent, 8 * n + 2⟩).2 h1.1 h1.2
    have h2' : (s.getNode ⟨parent, 8 * n + 2⟩).1.nodes.length ≤ (encMsg (((s.getNode ⟨parent, 8 * n + 2⟩).1.pushTag
      ⟨parent, 8 * n + 2⟩ kSubStart).getPos ⟨parent, 8 * n + 2⟩ kSubEnd).1 (s.getNode ⟨parent, 8 * n + 2⟩).2 body).nodes.length := h2.2
    have h3 := ih ((encMsg (((s.getNode ⟨parent, 8 * n + 2⟩).1.pushTag ⟨parent, 8 * n + 2⟩ kSubStart).getPos
      ⟨parent, 8 * n + 2⟩ kSubEnd).1 (s.getNode ⟨parent, 8 * n + 2⟩).2 body).push
      (((s.getNode ⟨parent, 8 * n + 2⟩).1.pushTag ⟨parent, 8 * n + 2⟩ kSubStart).getPos ⟨parent, 8 * n + 2⟩ kSubEnd).2) parent
      h2.1 (by
        show parent < kRoot + 1 + (encMsg _ _ body).nodes.length
        omega)
    exact ⟨h3.1, Nat.le_trans (Nat.le_trans hk h2') h3.2⟩
  | group n body rest ihb ih =>
    intro s parent hs hp
    rw [encMsg]
    have h1 := parentsOk_getNode hs (id := ⟨parent, 8 * n + 3⟩) hp
    have hk := key s ⟨parent, 8 * n + 3⟩
    have h2 := ihb ((s.getNode ⟨parent, 8 * n + 3⟩).1.pushTag ⟨parent, 8 * n + 3⟩ 0)
      (s.getNode ⟨parent, 8 * n + 3⟩).2 h1.1 h1.2
    have h2' : (s.getNode ⟨parent, 8 * n + 3⟩).1.nodes.length ≤ (encMsg ((s.getNode ⟨parent, 8 * n + 3⟩).1.pushTag
      ⟨parent, 8 * n + 3⟩ 0) (s.getNode ⟨parent, 8 * n + 3⟩).2 body).nodes.length := h2.2
    generalize encMsg ((s.getNode ⟨parent, 8 * n + 3⟩).1.pushTag ⟨parent, 8 * n + 3⟩ 0) (s.getNode ⟨parent, 8 * n + 3⟩).2 body = s2 at *
    have h4 := parentsOk_getNode h2.1 (id := ⟨(s.getNode ⟨parent, 8 * n + 3⟩).2, 8 * n + 4⟩) (by
      have := h1.2
      show (s.getNode ⟨parent, 8 * n + 3⟩).2 < _
      omega)
    have hk2 := key s2 ⟨(s.getNode ⟨parent, 8 * n + 3⟩).2, 8 * n + 4⟩
    have h3 := ih ((s2.getNode ⟨(s.getNode ⟨parent, 8 * n + 3⟩).2, 8 * n + 4⟩).1.pushTag
      ⟨(s.getNode ⟨parent, 8 * n + 3⟩).2, 8 * n + 4⟩ 0) parent h4.1 (by
        show parent < kRoot + 1 + (s2.getNode _).1.nodes.length
        omega)
    exact ⟨h3.1, Nat.le_trans (Nat.le_trans (Nat.le_trans hk h2') hk2) h3.2⟩

/-! ## Records -/

/-- What adding records did, for decoding with projection; `rs` are the projected records. -/
def AddedP (m : List IncField) (F : List (List Nat)) (s s' : ESt) (rs : List Bytes) : Prop :=
  s.tags <+: s'.tags ∧ s.nodes <+: s'.nodes ∧
  ∃ new, s'.enc = new ++ s.enc ∧
  ∀ T P, s'.tags <+: T → Paths P s'.nodes → ∀ D L,
    prun m (incOf F P) (new.filterMap (T[·]?)) ⟨projData F P s', s'.lens, D, L, [], 0⟩ =
      some ⟨projData F P s, s.lens, rs.flatten ++ D, Added.limitsBack D.length rs ++ L, [], 0⟩

theorem AddedP.trans {m : List IncField} {F : List (List Nat)} {s s1 s2 : ESt} {x y : List Bytes}
    (h1 : AddedP m F s s1 x) (h2 : AddedP m F s1 s2 y) : AddedP m F s s2 (x ++ y) := by
  obtain ⟨a1, a2, new1, a3, a4⟩ := h1
  obtain ⟨b1, b2, new2, b3, b4⟩ := h2
  refine ⟨a1.trans b1, a2.trans b2, new2 ++ new1, by rw [b3, a3]; simp, ?_⟩
  intro T P hT hP D L
  rw [List.filterMap_append, prun_append, b4 T P hT hP D L, Option.bind_some, a4 T P (b1.trans hT) (Paths.mono b2 hP)]
  rw [limitsBack_append]
  simp [List.append_assoc]

theorem addRecord_proj {m : List IncField} {F : List (List Nat)} (ha : Answers m F) (hF : ∀ f ∈ F, f ≠ []) {s s' : ESt} (r : Rec)
    (hr : r.Wf kMaxRecursionDepth) (hl : r.ser.length < 2 ^ 32) (hok : ParentsOk s.nodes) (h : s.addRecord r.ser = some s') :
    ParentsOk s'.nodes ∧ AddedP m F s s' [(r.project F).ser] := by
  obtain ⟨b0, hb0⟩ : ∃ b, b = r.ser := ⟨_, rfl⟩
  rw [← hb0] at h hl
  unfold ESt.addRecord at h
  split at h
  · cases h
  split at h
  · cases h
  simp only at h
  generalize hs0 : ({ s with numRecords := s.numRecords + 1, decodedDataSize := s.decodedDataSize + b0.length } : ESt) = s0 at h
  have hn0 : s0.nodes = s.nodes := by rw [← hs0]
  have ht0 : s0.tags = s.tags := by rw [← hs0]
  have he0 : s0.enc = s.enc := by rw [← hs0]
  have hd0 : s0.data = s.data := by rw [← hs0]
  have hl0 : s0.lens = s.lens := by rw [← hs0]
  cases r with
  | msg x =>
    obtain ⟨hv, hsp⟩ := hr
    have hp : isProtoMessage x.ser = true := (isProtoMessage_iff _).2 ⟨x, hv, rfl⟩
    have hb1 : b0 = x.ser := hb0
    subst hb1
    rw [if_pos hp] at h
    have henc := addLoop_enc x ((s0.getNode ⟨kStartOfMessage, 0⟩).1.pushTag ⟨kStartOfMessage, 0⟩ 0) kRoot [] [] [] hv hsp
    rw [List.append_nil] at henc
    rw [henc, addLoop.eq_def, if_pos rfl] at h
    simp only [Option.some.injEq] at h
    have hg := parentsOk_getNode (s := s0) (by rw [hn0]; exact hok) (id := ⟨kStartOfMessage, 0⟩)
      (by show kStartOfMessage < _; unfold kStartOfMessage kRoot; omega)
    have hnode := encMsg_nodes x ((s0.getNode ⟨kStartOfMessage, 0⟩).1.pushTag ⟨kStartOfMessage, 0⟩ 0) kRoot hg.1 (by omega)
    have hseg := encMsg_proj ha hF x ((s0.getNode ⟨kStartOfMessage, 0⟩).1.pushTag ⟨kStartOfMessage, 0⟩ 0) kRoot hv hl
    rw [h] at hnode hseg
    refine ⟨hnode.1, ?_⟩
    obtain ⟨a1, a2, _, _, a5, new, a6, a7⟩ := hseg
    have hf := findOrAppend_spec s0.tags (⟨kStartOfMessage, 0⟩, 0)
    have hpre : s.nodes <+: (s0.getNode ⟨kStartOfMessage, 0⟩).1.nodes := by rw [← hn0]; exact getNode_prefix _ _
    refine ⟨by rw [← ht0]; exact hf.1.trans a1, hpre.trans a2, new ++ [(findOrAppend s0.tags (⟨kStartOfMessage, 0⟩, 0)).2], ?_, ?_⟩
    · rw [a6, ← he0]; simp [ESt.pushTag, ESt.push, ESt.getPos, ESt.getNode]
    · intro T P hT hP D L
      have hroot := hP.root
      have hrun := a7 T P hT hP D L [] 0 (Or.inl ⟨rfl, by rw [hroot]; rfl, Or.inl hroot⟩)
      have hTe : T[(findOrAppend s0.tags (⟨kStartOfMessage, 0⟩, 0)).2]? = some (⟨kStartOfMessage, 0⟩, 0) :=
        getElem?_prefix (a1.trans hT) hf.2.1
      rw [List.filterMap_append, prun_append, hrun]
      simp only [List.filterMap_cons, hTe, List.filterMap_nil, Option.bind_some, prun, hroot, if_true]
      have hpd : projData F P ((s0.getNode ⟨kStartOfMessage, 0⟩).1.pushTag ⟨kStartOfMessage, 0⟩ 0) = projData F P s :=
        projData_congr (by rw [← hd0]; rfl)
      have hll : ((s0.getNode ⟨kStartOfMessage, 0⟩).1.pushTag ⟨kStartOfMessage, 0⟩ 0).lens = s.lens := by rw [← hl0]; rfl
      rw [hpd, hll]
      unfold pop aop
      simp [kStartOfMessage, kNonProto, PSt.toA, ASt.toP, Added.limitsBack, Rec.project, Rec.ser]
  | other b =>
    have hp : ¬ isProtoMessage b = true := fun hh => hr ((isProtoMessage_iff _).1 hh)
    have hb1 : b0 = b := hb0
    subst hb1
    rw [if_neg hp] at h
    simp only [Option.some.injEq] at h
    have hg := parentsOk_getNode (s := s0) (by rw [hn0]; exact hok) (id := ⟨kNonProto, 0⟩)
      (by show kNonProto < _; unfold kNonProto kRoot; omega)
    have hpre : s.nodes <+: (s0.getNode ⟨kNonProto, 0⟩).1.nodes := by rw [← hn0]; exact getNode_prefix _ _
    have hf := findOrAppend_spec s0.tags (⟨kNonProto, 0⟩, 0)
    have hnodes : s'.nodes = (s0.getNode ⟨kNonProto, 0⟩).1.nodes := by rw [← h]; rfl
    have htags : s'.tags = (findOrAppend s0.tags (⟨kNonProto, 0⟩, 0)).1 := by rw [← h]; rfl
    have hencs : s'.enc = (findOrAppend s0.tags (⟨kNonProto, 0⟩, 0)).2 :: s.enc := by rw [← h, ← he0]; rfl
    have hdata : s'.data = (s.write .nonProto ⟨kNonProto, 0⟩ b0).data := by
      rw [← h]
      show (fun t => if t = .nonProto then prependTo _ b0 (s0.data .nonProto) else s0.data t) = _
      rw [hd0]; rfl
    have hlens : s'.lens = writeVarint b0.length ++ s.lens := by rw [← h, ← hl0]; rfl
    refine ⟨by rw [hnodes]; exact hg.1, by rw [htags, ← ht0]; exact hf.1, by rw [hnodes]; exact hpre,
      [(findOrAppend s0.tags (⟨kNonProto, 0⟩, 0)).2], hencs, ?_⟩
    intro T P hT hP D L
    rw [htags] at hT
    have hTe := getElem?_prefix hT hf.2.1
    simp only [List.filterMap_cons, hTe, List.filterMap_nil, prun]
    rw [projData_keep hdata rfl (Or.inl rfl), hlens]
    unfold pop aop
    simp only [if_true, setData_same, PSt.toA]
    rw [readVarint_write (by omega) hl]
    simp only [ne_eq, not_true_eq_false, if_false]
    rw [if_neg (by simp), List.take_left' rfl, List.drop_left' rfl, setData_setData, setData_self]
    simp [ASt.toP, Added.limitsBack, Rec.project, Rec.ser]

/-- All records. -/
theorem addAll_proj {m : List IncField} {F : List (List Nat)} (ha : Answers m F) (hF : ∀ f ∈ F, f ≠ []) : ∀ (rs : List Rec)
    {s s' : ESt}, (∀ r ∈ rs, r.Wf kMaxRecursionDepth ∧ r.ser.length < 2 ^ 32) → ParentsOk s.nodes →
    s.addAll (rs.map Rec.ser) = some s' → ParentsOk s'.nodes ∧ AddedP m F s s' (rs.map (fun r => (r.project F).ser))
  | [], s, s', _, hok, h => by
    cases h
    exact ⟨hok, List.prefix_refl _, List.prefix_refl _, [], rfl, by intro T P _ _ D L; simp [prun, Added.limitsBack]⟩
  | r :: rs, s, s', hr, hok, h => by
    rw [List.map_cons, ESt.addAll] at h
    cases h1 : s.addRecord r.ser with
    | none => rw [h1] at h; cases h
    | some s1 =>
      rw [h1, Option.bind_some] at h
      obtain ⟨w1, w2⟩ := hr r List.mem_cons_self
      obtain ⟨b1, b2⟩ := addRecord_proj ha hF r w1 w2 hok h1
      obtain ⟨c1, c2⟩ := addAll_proj ha hF rs (fun x hx => hr x (List.mem_cons_of_mem _ hx)) b1 h
      exact ⟨c1, b2.trans c2⟩

end Riegeli.Tr

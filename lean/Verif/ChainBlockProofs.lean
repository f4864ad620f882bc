import Verif.ChainHeapProofs
/-!
# Chain: what the operations on a single block do
-/
namespace Riegeli.Chn

/-- The room for appending in a block. -/
def roomAfter (mem : Bytes) (beg len : Nat) : Nat :=
  if len = 0 then mem.length else mem.length - (beg + len)
/-- The room for prepending in a block. -/
def roomBefore (mem : Bytes) (beg len : Nat) : Nat :=
  if len = 0 then mem.length else beg

theorem canAppend_some {H : Heap} {hs : List Nat} (g : Good H hs) {id : Nat} (hm : id ∈ hs)
    (n : Nat) : ∃ b, canAppend H id n = some b := by
  obtain ⟨⟨refs, body⟩, h1, h2⟩ := g.live hm
  unfold canAppend
  rw [get_of h1 h2]
  cases body <;> exact ⟨_, rfl⟩

theorem canPrepend_some {H : Heap} {hs : List Nat} (g : Good H hs) {id : Nat} (hm : id ∈ hs)
    (n : Nat) : ∃ b, canPrepend H id n = some b := by
  obtain ⟨⟨refs, body⟩, h1, h2⟩ := g.live hm
  unfold canPrepend
  rw [get_of h1 h2]
  cases body <;> exact ⟨_, rfl⟩

theorem get_some {H : Heap} {id : Nat} {r : Raw} (h : get H id = some r) :
    H[id]? = some r ∧ r.refs ≠ 0 := by
  unfold get at h
  split at h
  · rename_i s hs
    split at h
    · cases h
    · cases h; exact ⟨hs, ‹_›⟩
  · cases h

theorem canAppend_true {H : Heap} {id n : Nat} (h : canAppend H id n = some true) :
    ∃ mem beg len, H[id]? = some ⟨1, .internal mem beg len⟩ ∧ n ≤ roomAfter mem beg len := by
  unfold canAppend at h
  split at h
  · cases h
  · rename_i refs mem beg len hg
    obtain ⟨h1, h2⟩ := get_some hg
    simp at h
    refine ⟨mem, beg, len, ?_, h.2⟩
    rw [h1, h.1]
  · cases h

theorem canPrepend_true {H : Heap} {id n : Nat} (h : canPrepend H id n = some true) :
    ∃ mem beg len, H[id]? = some ⟨1, .internal mem beg len⟩ ∧ n ≤ roomBefore mem beg len := by
  unfold canPrepend at h
  split at h
  · cases h
  · rename_i refs mem beg len hg
    obtain ⟨h1, h2⟩ := get_some hg
    simp at h
    refine ⟨mem, beg, len, ?_, h.2⟩
    rw [h1, h.1]
  · cases h

theorem get_one {H : Heap} {id : Nat} {b : Body} (h : H[id]? = some ⟨1, b⟩) :
    get H id = some ⟨1, b⟩ := get_of h (by simp)

/-! ### Memory -/

theorem writeMem_some {mem bs : Bytes} {off : Nat} (h : off + bs.length ≤ mem.length) :
    writeMem mem off bs = some (mem.take off ++ bs ++ mem.drop (off + bs.length)) ∧
      (mem.take off ++ bs ++ mem.drop (off + bs.length)).length = mem.length := by
  refine ⟨by unfold writeMem; rw [if_pos h], ?_⟩
  simp; omega

theorem slice_write_after {mem bs : Bytes} {beg len n : Nat} (h : beg + len ≤ mem.length)
    (hn : n ≤ bs.length) :
    slice (mem.take (beg + len) ++ bs ++ mem.drop (beg + len + bs.length)) beg (len + n)
      = slice mem beg len ++ bs.take n := by
  unfold slice
  rw [List.append_assoc, List.drop_append_of_le_length (by simp; omega)]
  have h1 : (mem.take (beg + len)).drop beg = (mem.drop beg).take len := by
    rw [List.drop_take]; congr 1; omega
  rw [h1]
  have h2 : ((mem.drop beg).take len).length = len := by simp; omega
  rw [List.take_append, h2]
  have h3 : len + n - len = n := by omega
  rw [h3, List.take_of_length_le (l := (mem.drop beg).take len) (by omega)]
  rw [List.take_append_of_le_length hn]

theorem slice_write_before {mem bs : Bytes} {beg len : Nat} (h : beg + len ≤ mem.length)
    (hb : bs.length ≤ beg) :
    slice (mem.take (beg - bs.length) ++ bs ++ mem.drop (beg - bs.length + bs.length))
      (beg - bs.length) (len + bs.length) = bs ++ slice mem beg len := by
  unfold slice
  rw [List.append_assoc]
  have h1 : (mem.take (beg - bs.length)).length = beg - bs.length := by simp; omega
  rw [List.drop_append, h1]
  rw [List.drop_of_length_le (l := mem.take (beg - bs.length)) (by omega)]
  have h2 : beg - bs.length - (beg - bs.length) = 0 := by omega
  have h3 : beg - bs.length + bs.length = beg := by omega
  rw [h2, h3, List.nil_append, List.drop_zero, List.take_append]
  have h4 : len + bs.length - bs.length = len := by omega
  rw [h4, List.take_of_length_le (by omega)]

/-! ### Appending and prepending to a block -/

theorem blkAppendExplicit_spec {H : Heap} {hs : List Nat} {id : Nat} {mem : Bytes}
    {beg len : Nat} (g : Good H (id :: hs)) (h1 : H[id]? = some ⟨1, .internal mem beg len⟩)
    {bs : Bytes} {n : Nat} (hn : n ≤ bs.length) (hroom : beg + len + bs.length ≤ mem.length) :
    ∃ H' mem', blkAppendExplicit H id bs n = some H' ∧ Good H' (id :: hs) ∧ Same H H' hs ∧
      H'[id]? = some ⟨1, .internal mem' beg (len + n)⟩ ∧ mem'.length = mem.length ∧
      slice mem' beg (len + n) = slice mem beg len ++ bs.take n ∧ id ∉ hs := by
  obtain ⟨hw, hl⟩ := writeMem_some (mem := mem) (bs := bs) (off := beg + len) (by omega)
  obtain ⟨g', hs', hb', hn'⟩ := setBody_spec (beg' := beg) (len' := len + n) g h1 hl (by rw [hl]; omega)
  refine ⟨_, _, ?_, g', hs', hb', hl, slice_write_after (by omega) hn, hn'⟩
  unfold blkAppendExplicit
  rw [get_one h1]
  simp only
  rw [if_pos ⟨hn, trivial, by split <;> omega⟩, hw]

theorem blkAppend_spec {H : Heap} {hs : List Nat} {id : Nat} {mem : Bytes} {beg len : Nat}
    (g : Good H (id :: hs)) (h1 : H[id]? = some ⟨1, .internal mem beg len⟩) {src : Bytes}
    (hroom : src.length ≤ roomAfter mem beg len) :
    ∃ H' mem', blkAppend H id src = some H' ∧ Good H' (id :: hs) ∧ Same H H' hs ∧
      H'[id]? = some ⟨1, .internal mem' (if len = 0 then 0 else beg) (len + src.length)⟩ ∧
      mem'.length = mem.length ∧
      slice mem' (if len = 0 then 0 else beg) (len + src.length) = slice mem beg len ++ src ∧
      id ∉ hs := by
  have hk := (g.body id _ h1 (by simp)).1
  obtain ⟨g', hs', hb', hn'⟩ := setBody_spec (mem' := mem) (beg' := if len = 0 then 0 else beg)
    (len' := len) g h1 rfl (by split <;> omega)
  obtain ⟨H', mem', he, g'', hs'', hb'', hl'', hsl, _⟩ := blkAppendExplicit_spec g' hb'
    (bs := src) (n := src.length) (Nat.le_refl _) (by
      unfold roomAfter at hroom
      split at hroom <;> rename_i h <;> simp [h] <;> omega)
  refine ⟨H', mem', ?_, g'', hs'.trans hs'' (fun _ h => h), hb'', hl'', ?_, hn'⟩
  · unfold blkAppend
    rw [get_one h1]
    exact he
  · rw [hsl, List.take_length]
    congr 1
    split
    · rename_i h; subst h; simp [slice]
    · rfl

theorem blkPrepend_spec {H : Heap} {hs : List Nat} {id : Nat} {mem : Bytes} {beg len : Nat}
    (g : Good H (id :: hs)) (h1 : H[id]? = some ⟨1, .internal mem beg len⟩) {src : Bytes}
    (hroom : src.length ≤ roomBefore mem beg len) :
    ∃ H' mem', blkPrepend H id src = some H' ∧ Good H' (id :: hs) ∧ Same H H' hs ∧
      H'[id]? = some ⟨1, .internal mem' ((if len = 0 then mem.length else beg) - src.length)
        (len + src.length)⟩ ∧
      mem'.length = mem.length ∧
      slice mem' ((if len = 0 then mem.length else beg) - src.length) (len + src.length)
        = src ++ slice mem beg len ∧ id ∉ hs := by
  have hk := (g.body id _ h1 (by simp)).1
  have hk2 := (g.body id _ h1 (by simp)).2
  unfold roomBefore at hroom
  generalize hbeg : (if len = 0 then mem.length else beg) = beg1 at *
  have hb1 : beg1 + len ≤ mem.length := by
    subst hbeg; split <;> omega
  obtain ⟨hw, hl⟩ := writeMem_some (mem := mem) (bs := src) (off := beg1 - src.length) (by omega)
  obtain ⟨g', hs', hb', hn'⟩ := setBody_spec (beg' := beg1 - src.length)
    (len' := len + src.length) g h1 hl (by rw [hl]; omega)
  refine ⟨_, _, ?_, g', hs', hb', hl, ?_, hn'⟩
  · unfold blkPrepend
    rw [get_one h1]
    simp only [hbeg]
    rw [if_pos ⟨trivial, hroom⟩, hw]
  · rw [slice_write_before hb1 hroom]
    congr 1
    subst hbeg
    split
    · rename_i h; subst h; simp [slice]
    · rfl

/-! ### Space in a block -/

theorem blkAppendBuffer_spec {H : Heap} {hs : List Nat} {id : Nat} {mem : Bytes}
    {beg len : Nat} (g : Good H (id :: hs)) (h1 : H[id]? = some ⟨1, .internal mem beg len⟩)
    (maxLen : Nat) :
    ∃ H' n, blkAppendBuffer H id maxLen
        = some (H', ⟨id, (if len = 0 then 0 else beg) + len, n⟩) ∧
      n = min (roomAfter mem beg len) maxLen ∧
      Good H' (id :: hs) ∧ Same H H' hs ∧
      H'[id]? = some ⟨1, .internal mem (if len = 0 then 0 else beg) (len + n)⟩ ∧
      (if len = 0 then 0 else beg) + (len + n) ≤ mem.length ∧
      slice mem (if len = 0 then 0 else beg) len = slice mem beg len ∧ id ∉ hs := by
  have hk := (g.body id _ h1 (by simp)).1
  have hr : mem.length - ((if len = 0 then 0 else beg) + len) = roomAfter mem beg len := by
    unfold roomAfter; split <;> rename_i h
    · omega
    · rfl
  have hle : (if len = 0 then 0 else beg) + (len + min (roomAfter mem beg len) maxLen) ≤ mem.length := by
    rw [← hr]; split <;> omega
  obtain ⟨g', hs', hb', hn'⟩ := setBody_spec (mem' := mem) (beg' := if len = 0 then 0 else beg)
    (len' := len + min (roomAfter mem beg len) maxLen) g h1 rfl hle
  refine ⟨_, _, ?_, rfl, g', hs', hb', hle, ?_, hn'⟩
  · unfold blkAppendBuffer
    rw [get_one h1]
    simp only [if_true]
    rw [hr]
  · split
    · rename_i h; subst h; simp [slice]
    · rfl

theorem blkPrependBuffer_spec {H : Heap} {hs : List Nat} {id : Nat} {mem : Bytes}
    {beg len : Nat} (g : Good H (id :: hs)) (h1 : H[id]? = some ⟨1, .internal mem beg len⟩)
    (maxLen : Nat) :
    ∃ H' beg' n, blkPrependBuffer H id maxLen = some (H', ⟨id, beg', n⟩) ∧
      n = min (roomBefore mem beg len) maxLen ∧
      Good H' (id :: hs) ∧ Same H H' hs ∧
      H'[id]? = some ⟨1, .internal mem beg' (len + n)⟩ ∧ beg' + (len + n) ≤ mem.length ∧
      slice mem (beg' + n) len = slice mem beg len ∧ id ∉ hs := by
  have hk := (g.body id _ h1 (by simp)).1
  have hr : (if len = 0 then mem.length else beg) = roomBefore mem beg len := rfl
  have hrl : roomBefore mem beg len + len ≤ mem.length := by
    unfold roomBefore; split <;> omega
  have hle : roomBefore mem beg len - min (roomBefore mem beg len) maxLen
      + (len + min (roomBefore mem beg len) maxLen) ≤ mem.length := by omega
  obtain ⟨g', hs', hb', hn'⟩ := setBody_spec (mem' := mem)
    (beg' := roomBefore mem beg len - min (roomBefore mem beg len) maxLen)
    (len' := len + min (roomBefore mem beg len) maxLen) g h1 rfl hle
  refine ⟨_, _, _, ?_, rfl, g', hs', hb', hle, ?_, hn'⟩
  · unfold blkPrependBuffer
    rw [get_one h1]
    simp only [if_true]
    rw [hr]
  · have : roomBefore mem beg len - min (roomBefore mem beg len) maxLen
        + min (roomBefore mem beg len) maxLen = roomBefore mem beg len := by omega
    rw [this]
    unfold roomBefore
    split
    · rename_i h; subst h; simp [slice]
    · rfl

/-- Filling space at the end of a block. -/
theorem fillSpan_after {H : Heap} {hs : List Nat} {id : Nat} {mem : Bytes} {beg len n : Nat}
    (g : Good H (id :: hs)) (h1 : H[id]? = some ⟨1, .internal mem beg (len + n)⟩) {bs : Bytes}
    (hb : bs.length = n) :
    ∃ H', fillSpan H ⟨id, beg + len, n⟩ bs = some H' ∧ Good H' (id :: hs) ∧ Same H H' hs ∧
      view H' id = some ⟨slice mem beg len ++ bs, some mem.length⟩ ∧
      (∃ mem', H'[id]? = some ⟨1, .internal mem' beg (len + n)⟩) ∧ id ∉ hs := by
  have hk := (g.body id _ h1 (by simp)).1
  obtain ⟨hw, hl⟩ := writeMem_some (mem := mem) (bs := bs) (off := beg + len) (by omega)
  obtain ⟨g', hs', hb', hn'⟩ := setBody_spec (beg' := beg) (len' := len + n) g h1 hl (by rw [hl]; omega)
  refine ⟨_, ?_, g', hs', ?_, ⟨_, hb'⟩, hn'⟩
  · unfold fillSpan
    rw [get_one h1]
    simp only
    rw [if_pos hb, hw]
  · rw [view_internal (n := 0) hb', hl, slice_write_after (by omega) (by omega),
      List.take_of_length_le (by omega)]

/-- Filling space at the beginning of a block. -/
theorem fillSpan_before {H : Heap} {hs : List Nat} {id : Nat} {mem : Bytes} {beg len n : Nat}
    (g : Good H (id :: hs)) (h1 : H[id]? = some ⟨1, .internal mem beg (len + n)⟩) {bs : Bytes}
    (hb : bs.length = n) :
    ∃ H', fillSpan H ⟨id, beg, n⟩ bs = some H' ∧ Good H' (id :: hs) ∧ Same H H' hs ∧
      view H' id = some ⟨bs ++ slice mem (beg + n) len, some mem.length⟩ ∧
      (∃ mem', H'[id]? = some ⟨1, .internal mem' beg (len + n)⟩) ∧ id ∉ hs := by
  have hk := (g.body id _ h1 (by simp)).1
  obtain ⟨hw, hl⟩ := writeMem_some (mem := mem) (bs := bs) (off := beg) (by omega)
  obtain ⟨g', hs', hb', hn'⟩ := setBody_spec (beg' := beg) (len' := len + n) g h1 hl (by rw [hl]; omega)
  refine ⟨_, ?_, g', hs', ?_, ⟨_, hb'⟩, hn'⟩
  · unfold fillSpan
    rw [get_one h1]
    simp only
    rw [if_pos hb, hw]
  · rw [view_internal (n := 0) hb', hl]
    have := slice_write_before (mem := mem) (bs := bs) (beg := beg + n) (len := len) (by omega) (by omega)
    have h3 : beg + n - bs.length = beg := by omega
    rw [h3, hb] at this
    rw [hb, this]

/-! ### Removing from a block -/

theorem tryClear_spec {H : Heap} {hs : List Nat} {id : Nat} (g : Good H (id :: hs)) {v : View}
    (hv : view H id = some v) :
    ∃ H' b, tryClear H id = some (H', b) ∧ Good H' (id :: hs) ∧ Same H H' hs ∧
      (b = true → view H' id = some ⟨[], v.cap⟩) ∧ (b = false → H' = H) := by
  obtain ⟨⟨refs, body⟩, h1, h2⟩ := g.live (List.mem_cons_self ..)
  unfold tryClear
  rw [get_of h1 h2]
  cases body with
  | internal mem beg len =>
    simp only
    have hk := (g.body id _ h1 h2).1
    by_cases hr : refs = 1
    · subst hr
      simp only [if_true]
      obtain ⟨g', hs', hb', hn'⟩ := setBody_spec (mem' := mem) (beg' := beg) (len' := 0) g h1 rfl (by omega)
      refine ⟨_, _, rfl, g', hs', fun _ => ?_, fun h => by simp at h⟩
      rw [view_internal (n := 0) hb']
      rw [view_internal (n := 0) h1] at hv
      cases hv
      simp [slice]
    · rw [if_neg hr]
      exact ⟨_, _, rfl, g, Same.refl _ _, fun h => by simp at h, fun _ => rfl⟩
  | external d => exact ⟨_, _, rfl, g, Same.refl _ _, fun h => by simp at h, fun _ => rfl⟩
  | sub o off len => exact ⟨_, _, rfl, g, Same.refl _ _, fun h => by simp at h, fun _ => rfl⟩

theorem slice_take (mem : Bytes) (beg len n : Nat) :
    slice mem beg (len - n) = (slice mem beg len).take (len - n) := by
  unfold slice; rw [List.take_take]; congr 1; omega

theorem slice_drop (mem : Bytes) (beg len n : Nat) :
    slice mem (beg + n) (len - n) = (slice mem beg len).drop n := by
  unfold slice; rw [List.drop_take, List.drop_drop]

theorem tryRemoveSuffix_spec {H : Heap} {hs : List Nat} {id : Nat} (g : Good H (id :: hs))
    {v : View} (hv : view H id = some v) {n : Nat} (hn : n ≤ v.data.length) :
    ∃ H' b, tryRemoveSuffix H id n = some (H', b) ∧ Good H' (id :: hs) ∧ Same H H' hs ∧
      (b = true → view H' id = some ⟨v.data.take (v.data.length - n), v.cap⟩) ∧
      (b = false → H' = H) := by
  obtain ⟨⟨refs, body⟩, h1, h2, h3⟩ := g.view_size (List.mem_cons_self ..) hv
  unfold tryRemoveSuffix
  rw [get_of h1 h2]
  cases body with
  | internal mem beg len =>
    have hk := (g.body id _ h1 h2).1
    have h3' : v.data.length = len := h3
    simp only [show n ≤ len by omega, if_true]
    by_cases hr : refs = 1
    · subst hr
      simp only [if_true]
      obtain ⟨g', hs', hb', hn'⟩ := setBody_spec (mem' := mem) (beg' := beg) (len' := len - n) g h1 rfl (by omega)
      refine ⟨_, _, rfl, g', hs', fun _ => ?_, fun h => by simp at h⟩
      rw [view_internal (n := 0) hb']
      rw [view_internal (n := 0) h1] at hv
      cases hv
      simp only [h3']
      rw [slice_take]
    · rw [if_neg hr]
      exact ⟨_, _, rfl, g, Same.refl _ _, fun h => by simp at h, fun _ => rfl⟩
  | external d =>
    simp only
    rw [if_pos (by rw [← h3]; exact hn)]
    exact ⟨_, _, rfl, g, Same.refl _ _, fun h => by simp at h, fun _ => rfl⟩
  | sub o off len =>
    simp only
    rw [if_pos (by rw [← h3]; exact hn)]
    exact ⟨_, _, rfl, g, Same.refl _ _, fun h => by simp at h, fun _ => rfl⟩

theorem tryRemovePrefix_spec {H : Heap} {hs : List Nat} {id : Nat} (g : Good H (id :: hs))
    {v : View} (hv : view H id = some v) {n : Nat} (hn : n ≤ v.data.length) :
    ∃ H' b, tryRemovePrefix H id n = some (H', b) ∧ Good H' (id :: hs) ∧ Same H H' hs ∧
      (b = true → view H' id = some ⟨v.data.drop n, v.cap⟩) ∧
      (b = false → H' = H) := by
  obtain ⟨⟨refs, body⟩, h1, h2, h3⟩ := g.view_size (List.mem_cons_self ..) hv
  unfold tryRemovePrefix
  rw [get_of h1 h2]
  cases body with
  | internal mem beg len =>
    have hk := (g.body id _ h1 h2).1
    have h3' : v.data.length = len := h3
    simp only [show n ≤ len by omega, if_true]
    by_cases hr : refs = 1
    · subst hr
      simp only [if_true]
      obtain ⟨g', hs', hb', hn'⟩ := setBody_spec (mem' := mem) (beg' := beg + n) (len' := len - n) g h1 rfl (by omega)
      refine ⟨_, _, rfl, g', hs', fun _ => ?_, fun h => by simp at h⟩
      rw [view_internal (n := 0) hb']
      rw [view_internal (n := 0) h1] at hv
      cases hv
      simp only
      rw [slice_drop]
    · rw [if_neg hr]
      exact ⟨_, _, rfl, g, Same.refl _ _, fun h => by simp at h, fun _ => rfl⟩
  | external d =>
    simp only
    rw [if_pos (by rw [← h3]; exact hn)]
    exact ⟨_, _, rfl, g, Same.refl _ _, fun h => by simp at h, fun _ => rfl⟩
  | sub o off len =>
    simp only
    rw [if_pos (by rw [← h3]; exact hn)]
    exact ⟨_, _, rfl, g, Same.refl _ _, fun h => by simp at h, fun _ => rfl⟩

/-! ### New blocks with data -/

/-- Block `b` is new: the only reference to it is ours, its data are `d`, and its memory
was requested with size `n`. -/
structure Fresh (H : Heap) (hs : List Nat) (H' : Heap) (b : Nat) (d : Bytes) (n : Nat) : Prop where
  good : Good H' (b :: hs)
  same : Same H H' hs
  not : b ∉ hs
  blk : ∃ mem beg, H'[b]? = some ⟨1, .internal mem beg d.length⟩ ∧ slice mem beg d.length = d ∧
    n ≤ mem.length ∧ headerSize + mem.length ≤ 2 * n + minBlock

theorem Fresh.view {H H' : Heap} {hs : List Nat} {b n : Nat} {d : Bytes}
    (f : Fresh H hs H' b d n) : ∃ cap, view H' b = some ⟨d, some cap⟩ ∧ n ≤ cap ∧
      headerSize + cap ≤ 2 * n + minBlock := by
  obtain ⟨mem, beg, h1, h2, h3, h4⟩ := f.blk
  exact ⟨mem.length, by rw [view_internal (n := 0) h1, h2], h3, h4⟩

/-- A new block, filled from the beginning: there is room after the data. -/
structure FreshA (H : Heap) (hs : List Nat) (H' : Heap) (b : Nat) (d : Bytes) (n : Nat) : Prop where
  good : Good H' (b :: hs)
  same : Same H H' hs
  not : b ∉ hs
  blk : ∃ mem, H'[b]? = some ⟨1, .internal mem 0 d.length⟩ ∧ slice mem 0 d.length = d ∧
    n ≤ mem.length ∧ headerSize + mem.length ≤ 2 * n + minBlock

theorem FreshA.toFresh {H H' : Heap} {hs : List Nat} {b n : Nat} {d : Bytes}
    (f : FreshA H hs H' b d n) : Fresh H hs H' b d n :=
  ⟨f.good, f.same, f.not, by obtain ⟨mem, h⟩ := f.blk; exact ⟨mem, 0, h⟩⟩

/-- A new block, filled from the end: there is room before the data. -/
structure FreshP (H : Heap) (hs : List Nat) (H' : Heap) (b : Nat) (d : Bytes) (n : Nat) : Prop where
  good : Good H' (b :: hs)
  same : Same H H' hs
  not : b ∉ hs
  blk : ∃ mem beg, H'[b]? = some ⟨1, .internal mem beg d.length⟩ ∧ slice mem beg d.length = d ∧
    n ≤ mem.length ∧ headerSize + mem.length ≤ 2 * n + minBlock ∧
    (d ≠ [] → beg + d.length = mem.length)

theorem FreshP.toFresh {H H' : Heap} {hs : List Nat} {b n : Nat} {d : Bytes}
    (f : FreshP H hs H' b d n) : Fresh H hs H' b d n :=
  ⟨f.good, f.same, f.not, by obtain ⟨mem, beg, h1, h2, h3, h4, _⟩ := f.blk; exact ⟨mem, beg, h1, h2, h3, h4⟩⟩

theorem newInternal_fresh {env : Env} (he : env.Ok) {H : Heap} {hs : List Nat} (g : Good H hs)
    {n : Nat} (h0 : n ≠ 0) (hn : n ≤ maxCap) :
    ∃ H' b, newInternal env H n = some (H', b) ∧ FreshA H hs H' b [] n ∧ FreshP H hs H' b [] n := by
  obtain ⟨H', b, mem, h1, h2, h3, h4, h5, h6, h7⟩ := newInternal_spec he g h0 hn
  exact ⟨H', b, h1, ⟨h2, h3, h7, mem, h4, by simp [slice], h5, h6⟩,
    ⟨h2, h3, h7, mem, 0, h4, by simp [slice], h5, h6, fun h => absurd rfl h⟩⟩

theorem FreshA.append {H H' : Heap} {hs : List Nat} {b n : Nat} {d : Bytes}
    (f : FreshA H hs H' b d n) (src : Bytes) (h : d.length + src.length ≤ n) :
    ∃ H'', blkAppend H' b src = some H'' ∧ FreshA H hs H'' b (d ++ src) n := by
  obtain ⟨mem, h1, h2, h3, h4⟩ := f.blk
  have hroom : src.length ≤ roomAfter mem 0 d.length := by
    unfold roomAfter; split <;> omega
  obtain ⟨H'', mem', a1, a2, a3, a4, a5, a6, a7⟩ := blkAppend_spec f.good h1 hroom
  refine ⟨H'', a1, ⟨a2, f.same.trans a3 (fun _ h => h), a7, mem', ?_, ?_, by omega, by omega⟩⟩
  · rw [a4]; simp
  · rw [List.length_append]
    have : (if d.length = 0 then 0 else 0) = 0 := by split <;> rfl
    rw [this, h2] at a6
    exact a6

theorem FreshA.appendExplicit {H H' : Heap} {hs : List Nat} {b n : Nat}
    (f : FreshA H hs H' b [] n) (bs : Bytes) (k : Nat) (hk : k ≤ bs.length) (h : bs.length ≤ n) :
    ∃ H'', blkAppendExplicit H' b bs k = some H'' ∧ FreshA H hs H'' b (bs.take k) n := by
  obtain ⟨mem, h1, h2, h3, h4⟩ := f.blk
  obtain ⟨H'', mem', a1, a2, a3, a4, a5, a6, a7⟩ := blkAppendExplicit_spec f.good h1 hk
    (by simp; omega)
  have hl : (bs.take k).length = k := by simp; omega
  refine ⟨H'', a1, ⟨a2, f.same.trans a3 (fun _ h => h), a7, mem', ?_, ?_, by omega, by omega⟩⟩
  · rw [a4, hl]; simp
  · rw [hl]
    simpa [slice] using a6

theorem FreshP.prepend {H H' : Heap} {hs : List Nat} {b n : Nat} {d : Bytes}
    (f : FreshP H hs H' b d n) (src : Bytes) (h : d.length + src.length ≤ n) :
    ∃ H'', blkPrepend H' b src = some H'' ∧ FreshP H hs H'' b (src ++ d) n := by
  obtain ⟨mem, beg, h1, h2, h3, h4, h5⟩ := f.blk
  have hroom : src.length ≤ roomBefore mem beg d.length := by
    unfold roomBefore
    split
    · omega
    · rename_i hd
      have := h5 (by intro he; rw [he] at hd; simp at hd)
      omega
  obtain ⟨H'', mem', a1, a2, a3, a4, a5, a6, a7⟩ := blkPrepend_spec f.good h1 hroom
  have hl : (src ++ d).length = d.length + src.length := by simp; omega
  refine ⟨H'', a1, ⟨a2, f.same.trans a3 (fun _ h => h), a7, mem', _, by rw [hl]; exact a4, ?_, by omega, by omega, ?_⟩⟩
  · rw [hl, a6, h2]
  · intro hne
    rw [hl]
    split
    · omega
    · rename_i hd
      have := h5 (by intro he; rw [he] at hd; simp at hd)
      unfold roomBefore at hroom
      rw [if_neg hd] at hroom
      omega

theorem FreshA.can {H H' : Heap} {hs : List Nat} {b n m : Nat} {d : Bytes}
    (f : FreshA H hs H' b d n) (h : d.length + m ≤ n) : canAppend H' b m = some true := by
  obtain ⟨mem, h1, h2, h3, h4⟩ := f.blk
  unfold canAppend
  rw [get_one h1]
  simp
  split <;> omega

theorem FreshP.can {H H' : Heap} {hs : List Nat} {b n m : Nat} {d : Bytes}
    (f : FreshP H hs H' b d n) (h : d.length + m ≤ n) : canPrepend H' b m = some true := by
  obtain ⟨mem, beg, h1, h2, h3, h4, h5⟩ := f.blk
  unfold canPrepend
  rw [get_one h1]
  simp
  split
  · omega
  · rename_i hd
    have := h5 (by intro he; rw [he] at hd; simp at hd)
    omega

theorem wasteful_false {a u : Nat} (h : a ≤ 2 * u + minBlock) : wasteful a u = false := by
  unfold wasteful
  split
  · rfl
  · split
    · rfl
    · simp; omega

theorem wasteful_true {a u : Nat} (h : 2 * u + minBlock < a) : wasteful a u = true := by
  unfold wasteful
  rw [if_neg (by omega), if_neg (by omega)]
  simp; omega

/-- A copy of a block is a new block with the same data. -/
theorem copyBlock_spec {env : Env} (he : env.Ok) {H : Heap} {hs : List Nat} (g : Good H hs)
    {id : Nat} {v : View} (_hm : id ∈ hs) (hv : view H id = some v) (h0 : v.data ≠ [])
    (hn : v.data.length ≤ maxCap) :
    ∃ H' b, copyBlock env H id = some (H', b) ∧ FreshA H hs H' b v.data v.data.length := by
  obtain ⟨H1, b, h1, f1, _⟩ := newInternal_fresh he g (n := v.data.length)
    (by simpa using h0) hn
  obtain ⟨H2, h2, f2⟩ := f1.append v.data (by simp)
  simp only [List.nil_append] at f2
  obtain ⟨cap, hc1, hc2, hc3⟩ := f2.toFresh.view
  refine ⟨H2, b, ?_, f2⟩
  unfold copyBlock
  simp only [hv, h1, h2, hc1, Option.bind_eq_bind, Option.bind_some]
  have : View.wasteful ⟨v.data, some cap⟩ = false := by
    show wasteful _ _ = false
    exact wasteful_false (by simp; omega)
  rw [this]; rfl

end Riegeli.Chn

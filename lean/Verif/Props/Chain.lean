import Verif.ChainWorldProofs
/-!
# C30: `Chain`

`World` is a program with any number of `Chain` and `Chain::Block` objects sharing
blocks, `COp` is one call, `COp.run` what the code does (`none` if it uses a deleted
block, accesses memory outside of an allocation, or fails an assertion), and `Shows w s`
says that the bytes which the program can read are `s`.

`COp.Effect` is the specification: objects behave like independent byte strings.
`env` is the memory allocator, with arbitrary contents of uninitialized memory.
-/
namespace Riegeli.Props
open Riegeli Chn

variable {env : Env} {w : World} {s : Values}

/-- C30: at any time, all chains can be read, and `size()` is the number of their bytes. -/
theorem C30_readable (he : env.Ok) (r : Reach env w) : ∃ s, Shows w s := by
  obtain ⟨s, v⟩ := r.inv he
  exact ⟨s, v.shows⟩

/-- C30: every call which is allowed works, changes what it should change as it should,
and nothing else: not the other chains and blocks, although they share memory. -/
theorem C30_calls (he : env.Ok) (r : Reach env w) (hs : Shows w s) (op : COp) (hp : op.Pre w s) :
    ∃ w' s', op.run env w = some w' ∧ Shows w' s' ∧ op.Effect w s s' ∧ Reach env w' := by
  obtain ⟨s0, v⟩ := r.inv he
  have := v.shows.unique hs
  subst this
  obtain ⟨w', s', h1, h2, h3⟩ := v.step he hp
  exact ⟨w', s', h1, h3.shows, h2, .call op r hs hp h1⟩

/-- `x` is a live block which is a part of block `id`. -/
def partOf (id : Nat) (x : Raw) : Bool :=
  match x.body with
  | .sub o _ _ => x.refs != 0 && o == id
  | _ => false

theorem owners_count (id : Nat) : ∀ H : Heap, (owners H).count id = H.countP (partOf id)
  | [] => rfl
  | x :: H => by
    have ih := owners_count id H
    unfold owners at ih ⊢
    rw [List.flatMap_cons, List.count_append, ih, List.countP_cons, Nat.add_comm]
    congr 1
    unfold Raw.own partOf
    cases x.body with
    | sub o off len => by_cases h : x.refs = 0 <;> simp [h, List.count_cons]
    | internal mem beg len => simp
    | external d => simp

/-- C30: the reference count of a block is exactly the number of references to it: from
chains, from `Chain::Block`s of the program, and from blocks which are a part of it. In
particular a block which is referred to is not deleted. -/
theorem C30_reference_counts (he : env.Ok) (r : Reach env w) {id : Nat} {b : Raw}
    (h : w.heap[id]? = some b) :
    b.refs = ((w.chains.flatMap (·.blocks)).count id + w.held.count id) +
      w.heap.countP (partOf id) := by
  obtain ⟨s, v⟩ := r.inv he
  rw [v.good.refs id b h, owners_count, List.count_append]
  rfl

/-- C30: when the last `Chain` and the last `Chain::Block` are destroyed, all blocks are
deleted. -/
theorem C30_no_leaks (he : env.Ok) (r : Reach env w) (hc : w.chains = []) (hh : w.held = [])
    {id : Nat} {b : Raw} (h : w.heap[id]? = some b) : b.refs = 0 := by
  obtain ⟨s, v⟩ := r.inv he
  have g := v.good
  rw [hc, hh] at g
  exact Good.no_leak g id b h

/-- A chain which is not empty can be reset. -/
theorem C30_reset_when_not_empty (he : env.Ok) (r : Reach env w) (hs : Shows w s) {i : Nat}
    (h : s.at i ≠ []) : Roomy w i := by
  obtain ⟨s0, v⟩ := r.inv he
  have := v.shows.unique hs
  subst this
  intro c hc
  have hi : i < s0.chains.length := by
    rw [← v.len]; exact (List.getElem?_eq_some_iff.1 hc).1
  obtain ⟨c', h1, _, r1⟩ := v.lookup hi
  rw [hc] at h1; cases h1
  exact r1.hasRoom h

/-- A chain which was just made, from at most 16 bytes, can be reset. -/
theorem C30_reset_when_new {w' : World} {src : Bytes} (h : src.length ≤ maxShort)
    (hr : (COp.make src).run env w = some w') : Roomy w' w.chains.length := by
  simp only [COp.run] at hr
  have key : ∀ H c, initBytes env w.heap {} src = some (H, c) → c.arr = none := by
    intro H c hc
    unfold initBytes at hc
    rw [if_neg (by simp)] at hc
    split at hc
    · simp at hc; rw [← hc.2]
    · simp only [ensureHasHere, if_true, Option.bind_eq_bind, Option.bind_some] at hc
      cases hw : writeMem (List.replicate maxShort 0) 0 src with
      | none => rw [hw] at hc; simp at hc
      | some m => rw [hw] at hc; simp at hc; rw [← hc.2]
  cases hc : initBytes env w.heap {} src with
  | none => rw [hc] at hr; simp at hr
  | some x =>
    rw [hc] at hr
    simp at hr
    subst hr
    intro c h1 _ a ha
    simp at h1
    subst h1
    rw [key x.1 x.2 hc] at ha
    simp at ha

/-! ### A program -/

/-- A memory allocator which gives exactly what was requested. -/
def exactEnv : Env := ⟨fun _ n => List.replicate n 0, fun _ => 0⟩

theorem exactEnv_ok : exactEnv.Ok :=
  ⟨fun _ n => by simp [exactEnv], fun _ n h => by simpa [exactEnv] using h,
    fun _ n => by simp [exactEnv, headerSize, minBlock]; omega⟩

/-- Two chains share a large block; then one of them is changed at both ends. -/
theorem C30_example (a b : Bytes) (ha : a.length = 600) (hb : b.length = 3) :
    ∃ w, Reach exactEnv w ∧
      Shows w ⟨[b ++ a ++ b, (a ++ a).drop 100], []⟩ := by
  have he := exactEnv_ok
  have ho : OptsOk {} := ⟨by decide, by decide, by decide⟩
  have hm : (10000 : Nat) ≤ maxSize := by decide
  have s0 : Shows {} {} := ⟨rfl, rfl, rfl⟩
  obtain ⟨w1, s1, _, h1, e1, r1⟩ := C30_calls he .start s0 (.make []) (by simp [COp.Pre])
  simp only [COp.Effect] at e1; subst e1
  obtain ⟨w2, s2, _, h2, e2, r2⟩ := C30_calls he r1 h1 (.external a)
    (by simp only [COp.Pre, ha]; decide)
  simp only [COp.Effect] at e2; subst e2
  obtain ⟨w3, s3, _, h3, e3, r3⟩ := C30_calls he r2 h2 (.appendBlock 0 0 .pass {})
    ⟨by simp, by simp, ho, by simp [Values.at, ha]; decide, by intro h; simp at h; rw [h] at ha; simp at ha⟩
  simp only [COp.Effect] at e3; subst e3
  obtain ⟨w4, s4, _, h4, e4, r4⟩ := C30_calls he r3 h3 (.copy 0) (by simp [COp.Pre, Values.put])
  simp only [COp.Effect] at e4; subst e4
  obtain ⟨w5, s5, _, h5, e5, r5⟩ := C30_calls he r4 h4 (.append 0 b {})
    ⟨by simp [Values.put], ho, by simp [Values.put, Values.at, ha, hb]; decide⟩
  simp only [COp.Effect] at e5; subst e5
  obtain ⟨w6, s6, _, h6, e6, r6⟩ := C30_calls he r5 h5 (.prepend 0 b {})
    ⟨by simp [Values.put], ho, by simp [Values.put, Values.at, ha, hb]; decide⟩
  simp only [COp.Effect] at e6; subst e6
  obtain ⟨w7, s7, _, h7, e7, r7⟩ := C30_calls he r6 h6 (.append 1 a {})
    ⟨by simp [Values.put], ho, by simp [Values.put, Values.at, ha]; decide⟩
  simp only [COp.Effect] at e7; subst e7
  obtain ⟨w8, s8, _, h8, e8, r8⟩ := C30_calls he r7 h7 (.removePrefix 1 100 {})
    ⟨by simp [Values.put], by simp [Values.put, Values.at, ha],
      by simp [Values.put, Values.at, ha]; decide, ho⟩
  simp only [COp.Effect] at e8; subst e8
  refine ⟨w8, r8, ?_⟩
  simpa [Values.put, Values.at] using h8

/-! ### Findings -/

/-- Finding 23: `Append(Block)` of an empty block to a chain with an empty block, with
`size_hint` equal to the size, asks for a block of capacity 0. -/
theorem C30_empty_blocks_fail : ∃ w, Reach exactEnv w ∧ Shows w ⟨[[]], [[]]⟩ ∧
    (COp.appendBlock 0 0 .share { hint := some 0 }).run exactEnv w = none := by
  have he := exactEnv_ok
  have s0 : Shows {} {} := ⟨rfl, rfl, rfl⟩
  have q1 : (COp.make []).run exactEnv {} = some ⟨[], [{}], []⟩ := by
    simp [COp.run, initBytes]
  have r1 : Reach exactEnv ⟨[], [{}], []⟩ := .call _ .start s0 (by simp [COp.Pre]) q1
  have s1 : Shows ⟨[], [{}], []⟩ ⟨[[]], []⟩ := ⟨rfl, rfl, rfl⟩
  have q2 : (COp.external []).run exactEnv ⟨[], [{}], []⟩ = some ⟨[⟨1, .external []⟩], [{}], [0]⟩ := rfl
  have r2 := Reach.call _ r1 s1 (by simp [COp.Pre]) q2
  have v2 : ∀ n : Nat, n ≠ 0 → view [⟨n, .external []⟩] 0 = some ⟨[], none⟩ := by
    intro n hn; rw [view_eq]; simp [hn]
  have s2 : Shows ⟨[⟨1, .external []⟩], [{}], [0]⟩ ⟨[[]], [[]]⟩ :=
    ⟨rfl, rfl, by simp [v2 1]⟩
  have q3 : (COp.appendBlock 0 0 .share {}).run exactEnv ⟨[⟨1, .external []⟩], [{}], [0]⟩ =
      some ⟨[⟨2, .external []⟩], [{ blocks := [0] }], [0]⟩ := by
    simp [COp.run, World.onBlock, appendRawBlock, v2 1, back, shortData, short16, pushBackO, refO, ref,
      Chn.get, pushBack, reserveBack, pushRaw]
  have r3 := Reach.call (.appendBlock 0 0 .share {}) r2 s2 ⟨by simp, by simp, ⟨by decide, by decide, by decide⟩,
    by simp [Values.at], by simp [EmptyOk, minBlock]⟩ q3
  refine ⟨_, r3, ⟨?_, rfl, by simp [v2 2]⟩, ?_⟩
  · simp [copyTo, fragments, v2 2]
  · simp [COp.run, World.onBlock, appendRawBlock, v2 2, back, canAppend, Chn.get, View.tiny, minBlock,
      newBlockCapacity, newInternal]

/-- The world after appending an external block of 512 bytes `m` times to one chain, and
then removing `k` blocks by `RemovePrefix()`. -/
def sharedWorld (d : Bytes) (m k : Nat) : World :=
  ⟨[⟨m - k + 1, .external d⟩],
   [{ blocks := List.replicate (m - k) 0, size := 512 * (m - k),
      arr := if m < 3 then none else some ⟨k, 16 - m, ((List.range m).map (512 * ·)).drop k⟩ }], [0]⟩

theorem sharedWorld_view (d : Bytes) (n : Nat) : view [⟨n + 1, .external d⟩] 0 = some ⟨d, none⟩ := by
  rw [view_eq]; simp

theorem sharedWorld_shows {d : Bytes} {m k : Nat} (r : Reach exactEnv (sharedWorld d m k)) :
    ∃ x, x.length = 512 * (m - k) ∧ Shows (sharedWorld d m k) ⟨[x], [d]⟩ := by
  obtain ⟨s, hs⟩ := C30_readable exactEnv_ok r
  have h4 := hs.sizes
  have h5 := hs.held
  simp only [sharedWorld, List.map_cons, List.map_nil, sharedWorld_view, Option.map_some] at h4 h5
  cases s with
  | mk chains held =>
    simp only at h4 h5
    match chains, held, h4, h5 with
    | [x], [y], h4, h5 =>
      simp only [List.map_cons, List.map_nil, List.cons.injEq, Option.some.injEq, and_true] at h4 h5
      subst h5
      exact ⟨x, by omega, hs⟩
    | [], _, h4, _ => simp at h4
    | _ :: _ :: _, _, h4, _ => simp at h4
    | _, [], _, h5 => simp at h5
    | _, _ :: _ :: _, _, h5 => simp at h5

theorem sharedWorld_push (d : Bytes) (hd : d.length = 512) {n : Nat} (hn : n < 16) (arr : Option Arr)
    (h : n = 0 → arr = none) :
    (COp.appendBlock 0 0 .share {}).run exactEnv ⟨[⟨n + 1, .external d⟩],
      [{ blocks := List.replicate n 0, size := 512 * n, arr := arr }], [0]⟩ =
      (pushBack [⟨n + 2, .external d⟩] { blocks := List.replicate n 0, size := 512 * (n + 1), arr := arr } 0).map
        fun c => ⟨[⟨n + 2, .external d⟩], [c], [0]⟩ := by
  have hmax : ¬ (maxSize - 512 * n < 512) := by unfold maxSize; omega
  have ht : View.tiny ⟨d, none⟩ = false := by simp [View.tiny, hd, minBlock]
  have he : View.empty ⟨d, none⟩ = false := by
    simp [View.empty]; intro h; rw [h] at hd; simp at hd
  have e : 512 * n + 512 = 512 * (n + 1) := by omega
  simp only [COp.run, World.onBlock, List.getElem?_cons_zero, Option.bind_eq_bind, Option.bind_some,
    appendRawBlock, sharedWorld_view, hd, if_neg hmax]
  rcases n with _ | n
  · rw [h rfl]
    simp [back, shortData, short16, pushBackO, refO, ref, Chn.get, pushBack, reserveBack, pushRaw]
  · have hb : back { blocks := List.replicate (n + 1) 0, size := 512 * (n + 1), arr := arr } = some 0 := by
      simp [back, List.getLast?_replicate]
    simp only [hb, sharedWorld_view, Option.bind_some, ht, he, View.wasteful, canAppend, Chn.get,
      List.getElem?_cons_zero, Nat.add_eq_zero_iff, Nat.one_ne_zero, and_false, if_false, Bool.false_and,
      Bool.false_eq_true, pushBackO, refO, ref, List.set_cons_zero, e]
    show Option.bind (Option.bind (pushBack [⟨n + 1 + 2, .external d⟩]
      { blocks := List.replicate (n + 1) 0, size := 512 * (n + 1 + 1), arr := arr } 0) _) _ = _
    cases pushBack [⟨n + 1 + 2, .external d⟩]
      { blocks := List.replicate (n + 1) 0, size := 512 * (n + 1 + 1), arr := arr } 0 <;> rfl

theorem sharedWorld_append (d : Bytes) (hd : d.length = 512) {m : Nat} (hm : m < 16) :
    (COp.appendBlock 0 0 .share {}).run exactEnv (sharedWorld d m 0) =
      some (sharedWorld d (m + 1) 0) := by
  have h := sharedWorld_push d hd hm
    (if m < 3 then none else some ⟨0, 16 - m, ((List.range m).map (512 * ·)).drop 0⟩)
    (by intro h; rw [if_pos (by omega)])
  unfold sharedWorld
  rw [Nat.sub_zero, Nat.sub_zero, h]
  rcases m with _ | _ | _ | m
  · simp [pushBack, reserveBack, pushRaw]
  · simp [pushBack, reserveBack, pushRaw, List.replicate]
  · simp [pushBack, reserveBack, pushRaw, List.replicate, initialOffs, Chn.sizeOf, sharedWorld_view, hd, back,
      wrap, List.range, List.range.loop]
  · have hw : 512 * (m + 2) + 512 < 2 ^ 64 := by omega
    have e1 : ¬ (m + 3 < 3) := by omega
    have e2 : ¬ (m + 3 + 1 < 3) := by omega
    have e3 : 16 - (m + 3) ≠ 0 := by omega
    have e4 : 1 ≤ 16 - (m + 3) := by omega
    have e5 : 16 - (m + 3) - 1 = 16 - (m + 3 + 1) := by omega
    have hw' : wrap (512 * (m + 2) + 512) = 512 * (m + 3) := by
      rw [wrap, Nat.mod_eq_of_lt hw]; omega
    have hl : ((List.range (m + 3)).map (512 * ·)).getLast? = some (512 * (m + 2)) := by
      rw [List.range_succ]; simp
    have hr : List.replicate (m + 3) 0 ++ [0] = List.replicate (m + 3 + 1) 0 := List.replicate_succ'.symm
    have ho : (List.range (m + 3)).map (512 * ·) ++ [512 * (m + 3)] = (List.range (m + 3 + 1)).map (512 * ·) := by
      rw [List.range_succ (n := m + 3), List.map_append]; rfl
    have hb : List.getLast? (List.replicate (m + 3) 0) = some 0 := by simp [List.getLast?_replicate]
    simp only [if_neg e1, if_neg e2, List.drop_zero, pushBack, reserveBack, if_pos e4, pushRaw, if_neg e3, back, hb,
      Chn.sizeOf, sharedWorld_view, Option.map_some, Option.bind_eq_bind, Option.bind_some, hl, hd, hw', hr, ho, e5]

theorem sharedWorld_remove (d : Bytes) (hd : d.length = 512) {k : Nat} (hk : k < 16) :
    (COp.removePrefix 0 512 {}).run exactEnv (sharedWorld d 16 k) = some (sharedWorld d 16 (k + 1)) := by
  obtain ⟨n, hn⟩ : ∃ n, 16 - k = n + 1 := ⟨15 - k, by omega⟩
  have hn' : 16 - (k + 1) = n := by omega
  have e1 : ¬ (512 * (n + 1) < 512) := by omega
  have e2 : 512 * (n + 1) - 512 = 512 * n := by omega
  have hv := sharedWorld_view d (n + 1)
  have hu : unref [⟨n + 1 + 1, .external d⟩] 0 = some [⟨n + 1, .external d⟩] := by
    rw [unref.eq_def]; simp
  simp [COp.run, World.on, sharedWorld, Chn.removePrefix.eq_1, hn, hn', e1, e2, List.replicate_succ,
    removePrefixLoop.eq_2, Chn.front, hv, hd, removePrefixFirst.eq_1, tryRemovePrefix, Chn.get, popFront, hu,
    Body.size]

/-- Finding 21: `Reset()` does not make space in the array of block pointers. Here a block
is appended 16 times to a chain, and removed by 16 calls of `RemovePrefix()`. Then `Reset()`
stores a block pointer after the end of the array. -/
theorem C30_reset_writes_past_array (d : Bytes) (hd : d.length = 512) :
    ∃ w, Reach exactEnv w ∧ Shows w ⟨[[]], [d]⟩ ∧ (COp.resetBlock 0 0).run exactEnv w = none := by
  have ho : OptsOk {} := ⟨by decide, by decide, by decide⟩
  have s0 : Shows {} {} := ⟨rfl, rfl, rfl⟩
  have q1 : (COp.make []).run exactEnv {} = some ⟨[], [{}], []⟩ := by
    simp [COp.run, initBytes]
  have r1 : Reach exactEnv ⟨[], [{}], []⟩ := .call _ .start s0 (by simp [COp.Pre]) q1
  have s1 : Shows ⟨[], [{}], []⟩ ⟨[[]], []⟩ := ⟨rfl, rfl, rfl⟩
  have q2 : (COp.external d).run exactEnv ⟨[], [{}], []⟩ = some (sharedWorld d 0 0) := rfl
  have r2 := Reach.call (.external d) r1 s1 (by simp only [COp.Pre, hd]; decide) q2
  have r3 : ∀ m, m ≤ 16 → Reach exactEnv (sharedWorld d m 0) := by
    intro m
    induction m with
    | zero => intro _; exact r2
    | succ m ih =>
      intro hm
      have r := ih (by omega)
      obtain ⟨x, hx, hs⟩ := sharedWorld_shows r
      refine Reach.call (.appendBlock 0 0 .share {}) r hs ⟨by simp, by simp, ho, ?_, ?_⟩
        (sharedWorld_append d hd hm)
      · simp [Values.at, hx, hd, maxSize]; omega
      · intro h; simp at h; rw [h] at hd; simp at hd
  have r4 : ∀ k, k ≤ 16 → Reach exactEnv (sharedWorld d 16 k) := by
    intro k
    induction k with
    | zero => intro _; exact r3 16 (by omega)
    | succ k ih =>
      intro hk
      have r := ih (by omega)
      obtain ⟨x, hx, hs⟩ := sharedWorld_shows r
      refine Reach.call (.removePrefix 0 512 {}) r hs ⟨by simp, ?_, ?_, ho⟩ (sharedWorld_remove d hd hk)
      · simp [Values.at, hx]; omega
      · simp [Values.at, hx, maxSize]; omega
  have r := r4 16 (by omega)
  obtain ⟨x, hx, hsh⟩ := sharedWorld_shows r
  have hx0 : x = [] := by simpa using hx
  subst hx0
  refine ⟨_, r, hsh, ?_⟩
  simp [COp.run, World.onBlock, sharedWorld, Chn.resetBlock, unrefAll, truncate, initBlock, Chn.sizeOf]

end Riegeli.Props
